import Verif.Bi.FlowNode
import Verif.Bi.FlowProps
import Verif.Bi.TrainProps

/-!
# Properties of `BiFlowNode`

C145 (execution), C146 (training).
-/

namespace Bi.FlowNode

open Py

variable {σ A V : Type} [DecidableEq V]

/-! ### Specification -/

/-- A message with nothing for the flow node itself: no entry addressed to it, no target, no method, and no entry with
the name of an argument. -/
def Plain (nodeId : Option Str) (m : Msg V) : Prop :=
  (∀ k, Addressed nodeId k → Dict.get m k = none) ∧ Dict.get m kTarget = none ∧ Dict.get m kMethod = none ∧
    Dict.get m kSelf = none ∧ Dict.get m kX = none

/-- The result of a flow as the result of a node. -/
def SameRes : SRes A V → BRes A V → Prop
  | .single x, .single y => x = y
  | .pair x m, .pair y m' => x = y ∧ m = m'
  | .triple x m t, .triple y m' t' => x = y ∧ m = m' ∧ t = t'
  | _, _ => False

/-- Where an execution of the flow node starts: at the first inner node, or at the inner node with the id that was
asked for. -/
def StartsAt (F : BFlow σ A V) (last : BVal V) (i : Nat) : Prop :=
  (last = .none ∧ i = 0) ∨ (IsId last ∧ last.truthy = true ∧ IdAt F last i)

/-! ### Lemmas -/

omit [DecidableEq V] in
theorem ids_nil {nodeId : Option Str} (hg : GoodId nodeId) {m : Msg V} (h : ∀ k, Addressed nodeId k → Dict.get m k = none)
    {ids : List (Str × Str)} (hi : getMsgIdKeys nodeId m = .ok ids) : ids = [] := by
  cases ids with
  | nil => rfl
  | cons p r =>
    exfalso
    have := (idKeysLoop_mem hg hi p.1 p.2).1 (by simp)
    rcases this with h1 | ⟨h1, h2⟩
    · cases h1
    · have h3 := (Dict.keys_get m p.2).1 h1
      rw [h p.2 ⟨p.1, h2⟩] at h3
      cases h3

omit [DecidableEq V] in
theorem get_filter_none (m : Msg V) (p : Str × BVal V → Bool) (k : Str) (h : Dict.get m k = none) :
    Dict.get (m.filter p) k = none := by
  rw [Dict.get_none] at h ⊢
  intro hk
  apply h
  simp only [Dict.keys, List.mem_map] at hk ⊢
  obtain ⟨e, he, rfl⟩ := hk
  exact ⟨e, List.mem_of_mem_filter he, rfl⟩

theorem start_index {F : BFlow σ A V} {last : BVal V} {i : Nat} (h : StartsAt F last i) (hlen : 0 < F.len) (s : σ) :
    targetToIndex F (getTarget ⟨s, last⟩).1 0 = .ok (.int i) ∧ (getTarget ⟨s, last⟩).2 = ⟨s, .none⟩ ∧ i < F.len := by
  rcases h with ⟨rfl, rfl⟩ | ⟨h1, h2, h3⟩
  · have e : getTarget (⟨s, .none⟩ : FSt σ V) = (.int 0, ⟨s, .none⟩) := rfl
    rw [e]
    refine ⟨?_, rfl, hlen⟩
    unfold targetToIndex
    simp only [reduceCtorEq, if_false]
    rw [if_neg (by omega), if_neg (by omega)]
    rfl
  · have e : getTarget (⟨s, last⟩ : FSt σ V) = (last, ⟨s, .none⟩) := by
      unfold getTarget
      simp only [h2, if_true]
    rw [e]
    refine ⟨?_, rfl, h3.1⟩
    have hf : findId F last 0 F.len = some i := by
      have := findId_spec F last F.len 0 (by omega) (by intro j hj; omega)
      cases hq : findId F last 0 F.len with
      | none =>
        rw [hq] at this
        exact absurd h3.2.1 (this i h3.1)
      | some j =>
        rw [hq] at this
        rw [IdAt.unique this h3]
    unfold targetToIndex
    rw [if_neg h1.2.2]
    simp only [if_neg h1.2.1]
    cases last with
    | int k => exact absurd rfl (h1.1 k)
    | none => exact absurd rfl h1.2.1
    | str t => simp only [hf]
    | other v => simp only [hf]

omit [DecidableEq V] in
theorem combine_none (r : BRes A V) : combine r none .none = r := by
  cases r <;> rfl

/-- The checks before the execution accept the data: they are cast to `x'`, and the nodes are then in the state `s'`.
Without data there is nothing to check. -/
inductive Checked (F : FNode σ A V) (s : σ) : Option A → Option A → σ → Prop where
  | none : Checked F s none none s
  | some {a : A} {s' : σ} : F.preExec s a = (.ok (), s') → Checked F s (some a) (some (F.refcast s' a)) s'

/-- A message with nothing for the flow node goes to the flow. -/
theorem execute_plain (F : FNode σ A V) (hg : GoodId F.nodeId) (n : Nat) {x x' : Option A} {m : Option (Msg V)}
    (hm : ∀ d, m = some d → Plain F.nodeId d) (hxm : m = none → x ≠ none) {st : FSt σ V} {s' : σ}
    (hids : ∀ d, m = some d → ∃ ids, getMsgIdKeys F.nodeId d = .ok ids)
    (hpre : Checked F st.inner x x' s') :
    execute F n x m st = exec F n x' m { st with inner := s' } := by
  have hc : checks F .none x st = (.ok x', { st with inner := s' }) := by
    unfold checks
    cases hpre with
    | none => rfl
    | some h1 => simp only [BVal.truthy, true_or, if_true, h1]
  unfold execute
  cases m with
  | none =>
    cases x with
    | none => exact absurd rfl (hxm rfl)
    | some a => simp only [hc]
  | some d =>
    obtain ⟨p1, p2, p3, p4, p5⟩ := hm d rfl
    obtain ⟨ids, hi⟩ := hids d rfl
    have := ids_nil hg p1 hi
    subst this
    simp only [hi]
    have e1 : extractKey kTarget d [] = (BVal.none, d, []) := by
      unfold extractKey
      simp only [popIdKey, p2]
      rfl
    have e2 : extractKey kMethod d [] = (BVal.none, d, []) := by
      unfold extractKey
      simp only [popIdKey, p3]
      rfl
    simp only [e1, e2]
    have e3 : getMethod F BVal.none BVal.none st = (BVal.none, st) := by
      unfold getMethod
      rw [if_neg (by simp)]
    simp only [e3, hc]
    have e4 : extractArgs [kSelf, kX, kMsg] d [] = (d, d.filter fun e => decide (e.1 ∈ [kSelf, kX, kMsg])) := rfl
    simp only [e4]
    rw [get_filter_none _ _ _ p4, get_filter_none _ _ _ p5]
    simp only [Option.isSome_none, Bool.or_self, Bool.false_eq_true, if_false]
    cases hq : exec F n x' (some d) { st with inner := s' } with
    | none => rfl
    | some q =>
      obtain ⟨q, st'⟩ := q
      cases q with
      | error e => rfl
      | ok r => simp only [combine_none]

theorem Path.no_stop {F : BFlow σ A V} {i : Nat} {x : Option A} {m : Option (Msg V)} {s s' : σ} {tr : List Nat}
    {r : Except Err (SRes A V)} (h : Path F none i x m s tr r s') : ∀ y m', r ≠ .ok (.stop y m') := by
  induction h with
  | stopped h => cases h
  | raised => intro y m' h; cases h
  | goes _ _ _ _ _ ih => exact ih
  | behind => intro y m' h; split at h <;> cases h
  | front => intro y m' h; cases h
  | leaves => intro y m' h; cases h
  | bad => intro y m' h; cases h

theorem sameRes_iff {F : BFlow σ A V} {i : Nat} {x : Option A} {m : Option (Msg V)} {s s' : σ} {tr : List Nat}
    {r : SRes A V} (h : Path F none i x m s tr (.ok r) s') (r' : BRes A V) : r' = toRes r ↔ SameRes r r' := by
  cases r with
  | stop y m' => exact absurd rfl (Path.no_stop h y m')
  | single y => cases r' <;> simp [toRes, SameRes, eq_comm]
  | pair y m' => cases r' <;> simp [toRes, SameRes, eq_comm]
  | triple y m' t => cases r' <;> simp [toRes, SameRes, eq_comm]

/-! ### C145 -/

/-- **C145, partial**: executing a flow node is executing its flow, from the first inner node or from the inner node with
the id that was requested last, until the flow is left; the result of the flow is the result of the node, targets
included, and the request is used up. It returns if and only if the flow returns. Missing: messages with entries for the
flow node itself (see the theorems below), and inner nodes that ask for a position below -1 (`NoWrap`). -/
theorem flownode_execute_partial (F : FNode σ A V) (hw : NoWrap F.toBFlow) (hg : GoodId F.nodeId) (hlen : 0 < F.len)
    {x x' : Option A} {m : Option (Msg V)} (hm : ∀ d, m = some d → Plain F.nodeId d) (hxm : m = none → x ≠ none)
    (hids : ∀ d, m = some d → ∃ ids, getMsgIdKeys F.nodeId d = .ok ids) {s s1 : σ} {last : BVal V} {i : Nat}
    (hpre : Checked F s x x' s1) (hs : StartsAt F.toBFlow last i)
    (st' : FSt σ V) :
    (∀ r, (∃ n, execute F n x m ⟨s, last⟩ = some (.ok r, st')) ↔
      st'.last = .none ∧ ∃ tr r', Path F.toBFlow none i x' m s1 tr (.ok r') st'.inner ∧ SameRes r' r) ∧
    ∀ e, (∃ n, execute F n x m ⟨s, last⟩ = some (.error e, st')) ↔
      st'.last = .none ∧ ∃ tr, Path F.toBFlow none i x' m s1 tr (.error e) st'.inner := by
  obtain ⟨h1, h2, hi⟩ := start_index hs hlen s1
  have hex : ∀ n, execute F n x m ⟨s, last⟩ =
      match executeSeq F.toBFlow none n (.int i) x' m s1 with
      | none => none
      | some o =>
        match o.res with
        | .error e => some (.error e, ⟨o.s, .none⟩)
        | .ok r => some (.ok (toRes r), ⟨o.s, .none⟩) := by
    intro n
    rw [execute_plain F hg n hm hxm hids hpre]
    unfold exec
    simp only [h1, h2]
    rfl
  constructor
  · intro r
    constructor
    · rintro ⟨n, hn⟩
      rw [hex] at hn
      cases ho : executeSeq F.toBFlow none n (.int i) x' m s1 with
      | none => rw [ho] at hn; cases hn
      | some o =>
        have hp := (execute_seq_path_partial F.toBFlow hw (by simp) hi x' m s1 o).1 ⟨n, ho⟩
        rw [ho] at hn
        simp only at hn
        cases hr : o.res with
        | error e => rw [hr] at hn; cases hn
        | ok r' =>
          rw [hr] at hn hp
          cases hn
          exact ⟨rfl, o.seen, r', hp, (sameRes_iff hp _).1 rfl⟩
    · rintro ⟨hl, tr, r', hp, hsame⟩
      obtain ⟨n, hn⟩ := (execute_seq_path_partial F.toBFlow hw (by simp) hi x' m s1
        ⟨.ok r', st'.inner, tr⟩).2 hp
      refine ⟨n, ?_⟩
      rw [hex, hn]
      simp only
      rw [(sameRes_iff hp _).2 hsame]
      obtain ⟨a, b⟩ := st'
      simp only at hl
      rw [hl]
  · intro e
    constructor
    · rintro ⟨n, hn⟩
      rw [hex] at hn
      cases ho : executeSeq F.toBFlow none n (.int i) x' m s1 with
      | none => rw [ho] at hn; cases hn
      | some o =>
        have hp := (execute_seq_path_partial F.toBFlow hw (by simp) hi x' m s1 o).1 ⟨n, ho⟩
        rw [ho] at hn
        simp only at hn
        cases hr : o.res with
        | ok r' => rw [hr] at hn; cases hn
        | error e =>
          rw [hr] at hn hp
          cases hn
          exact ⟨rfl, o.seen, hp⟩
    · rintro ⟨hl, tr, hp⟩
      obtain ⟨n, hn⟩ := (execute_seq_path_partial F.toBFlow hw (by simp) hi x' m s1
        ⟨.error e, st'.inner, tr⟩).2 hp
      refine ⟨n, ?_⟩
      rw [hex, hn]
      obtain ⟨a, b⟩ := st'
      simp only at hl
      rw [hl]

/-- **C145**: data that the checks refuse are not executed, and a request is kept. -/
theorem flownode_refused (F : FNode σ A V) (n : Nat) {a : A} {s s' : σ} {e : Err} (last : BVal V)
    (hpre : F.preExec s a = (.error e, s')) : execute F n (some a) none ⟨s, last⟩ = some (.error e, ⟨s', last⟩) := by
  unfold execute
  simp only [checks, BVal.truthy, true_or, if_true, hpre]

/-- **C145**: a request for the id of an inner node is remembered for the next execution; the id of the flow node itself,
and an id that no inner node knows, are not. -/
theorem flownode_request (F : FNode σ A V) (t : BVal V) (st : FSt σ V) :
    (F.nodeId.map BVal.str = some t → request F t st = (true, st)) ∧
    (F.nodeId.map BVal.str ≠ some t → (∃ j, IdAt F.toBFlow t j) → request F t st = (true, { st with last := t })) ∧
    (F.nodeId.map BVal.str ≠ some t → NotHere F.toBFlow t → request F t st = (false, st)) := by
  have hsp := findId_spec F.toBFlow t F.len 0 (by omega) (by intro j hj; omega)
  refine ⟨?_, ?_, ?_⟩
  · intro h
    unfold request
    rw [if_pos h]
  · rintro h ⟨j, hj⟩
    unfold request
    rw [if_neg h]
    cases hq : findId F.toBFlow t 0 F.len with
    | none => rw [hq] at hsp; exact absurd hj.2.1 (hsp j hj.1)
    | some i => rfl
  · intro h hn
    unfold request
    rw [if_neg h]
    cases hq : findId F.toBFlow t 0 F.len with
    | none => rfl
    | some i => rw [hq] at hsp; exact absurd hsp.2.1 (hn i hsp.1)

/-- **C145**: after `bi_reset` no request is left. -/
theorem flownode_reset (F : FNode σ A V) (st : FSt σ V) : biReset F st = ⟨F.reset st.inner, .none⟩ := rfl

/-- **C145**: flow nodes can be nested without changing what is computed. If the inner nodes give data only, the flow node
gives the composition of the inner nodes. -/
theorem flownode_flat (F : FNode σ A V) {f : Nat → σ → A → Except Err A × σ} (h : Computes F.toBFlow f) (hlen : 0 < F.len)
    {n : Nat} (hn : F.len ≤ n) (x : A) (s s1 : σ) (hpre : F.preExec s x = (.ok (), s1)) :
    execute F n (some x) none ⟨s, .none⟩ =
      match chain f 0 F.len s1 (F.refcast s1 x) with
      | (.ok y, s') => some (.ok (.single (some y)), ⟨s', .none⟩)
      | (.error e, s') => some (.error e, ⟨s', .none⟩) := by
  obtain ⟨h1, h2, _⟩ := start_index (F := F.toBFlow) (last := .none) (i := 0) (.inl ⟨rfl, rfl⟩) hlen s1
  have hx : execute F n (some x) none ⟨s, .none⟩ = exec F n (some (F.refcast s1 x)) none ⟨s1, .none⟩ := by
    unfold execute
    simp only [checks, BVal.truthy, true_or, if_true, hpre]
  rw [hx]
  unfold exec
  rw [h1]
  simp only [h2]
  obtain ⟨l, hl⟩ : ∃ l, F.len = l + 1 := ⟨F.len - 1, by omega⟩
  obtain ⟨o, ho1, ho2⟩ := executeSeq_chain h l 0 (F.refcast s1 x) s1 [] (by omega) n (by omega)
  have : executeSeq F.toBFlow none n (.int ((0 : Nat) : Int)) (some (F.refcast s1 x)) none s1 = some o := ho1
  rw [this]
  rw [← hl] at ho2
  generalize chain f 0 F.len s1 (F.refcast s1 x) = q at ho2 ⊢
  obtain ⟨q, s'⟩ := q
  cases q with
  | ok y => simp only at ho2 ⊢; rw [ho2.1, ho2.2]; rfl
  | error e => simp only at ho2 ⊢; rw [ho2.1, ho2.2]

omit [DecidableEq V] in
theorem get_single_addr (id k : Str) (v : BVal V) {k' : Str} (h : addr id k ≠ k') :
    Dict.get [(addr id k, v)] k' = none := by simp [Dict.get, h]

/-- **C145** fails for `method: inverse` addressed to the flow node: the entry is removed from the message before the inner
nodes see it, so the execution starts at the last inner node, but executes it forwards, with an empty message. -/
theorem addressed_inverse_false (F : FNode σ A V) {id : Str} (hid : F.nodeId = some id) (hg : GoodId F.nodeId)
    (hlen : 2 ≤ F.len) (n : Nat) (x : Option A) (s : σ) :
    execute F n x (some [(addr id kMethod, .str sInverse)]) ⟨s, .none⟩ =
      match executeSeq F.toBFlow none n (.int ((F.len - 1 : Nat) : Int)) x (some []) s with
      | none => none
      | some o =>
        match o.res with
        | .error e => some (.error e, ⟨o.s, .none⟩)
        | .ok r => some (.ok (toRes r), ⟨o.s, .none⟩) := by
  have hg' := hg id hid
  have hsepM : ¬ HasSep kMethod := by
    rintro ⟨a, b, h⟩
    have : '-' ∈ kMethod := by rw [h, addr_def]; simp
    revert this; decide
  have hids : getMsgIdKeys F.nodeId [(addr id kMethod, BVal.str (V := V) sInverse)] = .ok [(kMethod, addr id kMethod)] := by
    unfold getMsgIdKeys
    simp only [Dict.keys, List.map_cons, List.map_nil]
    rw [idKeysLoop]
    rw [if_pos ((find_pos _).2 ⟨id, kMethod, rfl, hg'.2, hg'.1⟩), (split_two _ _ _).2 ⟨rfl, hg'.2, hsepM⟩]
    simp [hid, idKeysLoop]
  unfold execute
  simp only [hids]
  have hne : ∀ k, k ∈ [kTarget, kSelf, kX] → addr id kMethod ≠ k := by
    intro k hk h
    have h1 : '-' ∈ k := by rw [← h, addr_def]; simp
    revert h1
    simp only [List.mem_cons, List.not_mem_nil, or_false] at hk
    rcases hk with rfl | rfl | rfl <;> decide
  have hkt : kTarget ≠ kMethod := by decide
  have e1 : extractKey kTarget [(addr id kMethod, BVal.str (V := V) sInverse)] [(kMethod, addr id kMethod)] =
      (.none, [(addr id kMethod, .str sInverse)], [(kMethod, addr id kMethod)]) := by
    simp [extractKey, popIdKey, hkt, get_single_addr _ _ _ (hne kTarget (by simp))]
  have e2 : extractKey kMethod [(addr id kMethod, BVal.str (V := V) sInverse)] [(kMethod, addr id kMethod)] =
      (.str sInverse, [], []) := by
    simp [extractKey, popIdKey, Dict.get, Dict.erase]
  simp only [e1, e2]
  have e3 : getMethod F (.str sInverse) .none (⟨s, .none⟩ : FSt σ V) = (.none, ⟨s, .int ((F.len : Int) - 1)⟩) := by
    simp [getMethod]
  simp only [e3]
  have e4 : extractArgs [kSelf, kX, kMsg] ([] : Msg V) [] = ([], []) := rfl
  simp only [e4]
  have e5 : ∀ st : FSt σ V, checks F (.str sInverse) x st = (.ok x, st) := by
    intro st
    unfold checks
    cases x with
    | none => rfl
    | some a =>
      simp only
      rw [if_neg]
      rintro (h | h)
      · revert h; simp [BVal.truthy, sInverse]
      · simp [sInverse, sExecute] at h
  simp only [e5]
  have e6 : (Dict.get ([] : Msg V) kSelf).isSome = false := rfl
  have e7 : (Dict.get ([] : Msg V) kX).isSome = false := rfl
  simp only [e6, e7, Bool.or_self, Bool.false_eq_true, if_false]
  unfold exec
  have e8 : getTarget (⟨s, .int ((F.len : Int) - 1)⟩ : FSt σ V) = (.int ((F.len : Int) - 1), ⟨s, .none⟩) := by
    unfold getTarget
    rw [if_pos]
    simp only [BVal.truthy, bne_iff_ne, ne_eq, decide_eq_true_eq]
    omega
  have e9 : targetToIndex F.toBFlow (.int ((F.len : Int) - 1)) 0 = .ok (.int ((F.len - 1 : Nat) : Int)) := by
    unfold targetToIndex
    simp only [reduceCtorEq, if_false]
    rw [if_neg (by omega), if_neg (by omega)]
    congr 2
    omega
  simp only [e8, e9]
  cases executeSeq F.toBFlow none n (.int ((F.len - 1 : Nat) : Int)) x (some []) s with
  | none => rfl
  | some o =>
    simp only
    cases o.res with
    | error e => rfl
    | ok r => simp only [combine_none]

/-- **C145** fails for a flow node with one inner node: an inverse execution leaves a request behind that nothing uses up,
so the state of the node is not what it was. -/
theorem one_node_request_kept_false (F : FNode σ A V) (hg : GoodId F.nodeId) (hlen : F.len = 1) {n : Nat} {x : Option A}
    {s : σ} (hids : ∃ ids, getMsgIdKeys F.nodeId [(kMethod, BVal.str (V := V) sInverse)] = .ok ids)
    (hna : ¬ Addressed F.nodeId kMethod) {q : Except Err (BRes A V)} {st' : FSt σ V}
    (h : execute F n x (some [(kMethod, .str sInverse)]) ⟨s, .none⟩ = some (q, st')) : st'.last = .int 0 := by
  obtain ⟨ids, hi⟩ := hids
  have hnone : ids = [] := by
    refine ids_nil hg ?_ hi
    intro k hk
    simp only [Dict.get]
    rw [if_neg]
    rintro rfl
    exact hna hk
  subst hnone
  unfold execute at h
  simp only [hi] at h
  have e1 : extractKey kTarget [(kMethod, BVal.str (V := V) sInverse)] [] = (.none, [(kMethod, .str sInverse)], []) := by
    simp [extractKey, popIdKey, Dict.get, show kMethod ≠ kTarget by decide]
  have e2 : extractKey kMethod [(kMethod, BVal.str (V := V) sInverse)] [] =
      (.str sInverse, [(kMethod, .str sInverse)], []) := by
    simp [extractKey, popIdKey, Dict.get]
  simp only [e1, e2] at h
  have e3 : getMethod F (.str sInverse) .none (⟨s, .none⟩ : FSt σ V) = (.none, ⟨s, .int 0⟩) := by
    simp [getMethod, hlen]
  simp only [e3] at h
  have e5 : ∀ st : FSt σ V, checks F (.str sInverse) x st = (.ok x, st) := by
    intro st
    unfold checks
    cases x with
    | none => rfl
    | some a =>
      simp only
      rw [if_neg]
      rintro (h | h)
      · revert h; simp [BVal.truthy, sInverse]
      · simp [sInverse, sExecute] at h
  simp only [e5] at h
  have e8 : getTarget (⟨s, .int 0⟩ : FSt σ V) = (.int 0, ⟨s, .int 0⟩) := by
    unfold getTarget
    rw [if_neg]
    simp [BVal.truthy]
  have hexec : ∀ (m : Option (Msg V)) q st', exec F n x m ⟨s, .int 0⟩ = some (q, st') → st'.last = .int 0 := by
    intro m q st' h
    unfold exec at h
    rw [e8] at h
    simp only at h
    split at h
    · cases h; rfl
    · split at h
      · cases h
      · split at h <;> (cases h; rfl)
  split at h
  · cases h; rfl
  · split at h
    · cases h
    · rename_i hq
      cases h
      exact hexec _ _ _ hq
    · rename_i hq
      cases h
      exact hexec _ _ _ hq

/-- Two inner nodes that add 1 and double, one with the id `a`; the flow node has the id `f`. -/
def demo : FNode Unit Nat Unit where
  len := 2
  isBi := fun _ => true
  exec := fun j _ x _ => (.ok (.single (x.map fun v => if j = 0 then v + 1 else 2 * v)), ())
  plain := fun _ _ x => (.ok x, ())
  hasId := fun j t => j == 1 && t == .str ['a']
  reset := id
  trainable := fun _ => false
  remaining := fun _ _ => 0
  train := fun _ _ _ _ => (.ok (.single none), ())
  plainTrain := fun _ _ _ => (.ok (), ())
  stop := fun _ _ _ => (.ok (.single none), ())
  nodeId := some ['f']
  preExec := fun _ _ => (.ok (), ())
  refcast := fun _ a => a

/-- What a test reads off. -/
def seen : Option (Except Err (BRes Nat Unit) × FSt Unit Unit) → Option (Option Nat × BVal Unit)
  | some (.ok (.single y), st) => some (y, st.last)
  | _ => none

/-- Checks that accept the even numbers, and a cast that halves them. -/
example : Checked { demo with preExec := fun _ a => (if a % 2 = 0 then .ok () else .error .typeError, ()),
                              refcast := fun _ a => a / 2 } () (some 6) (some 3) () := .some rfl

example : seen (execute demo 5 (some 3) none ⟨(), .none⟩) = some (some 8, .none) := by decide
example : seen (execute demo 5 (some 3) none ⟨(), .str ['a']⟩) = some (some 6, .none) := by decide
example : (request demo (.str ['a']) ⟨(), .none⟩).2.last = .str ['a'] := by decide
example : NoWrap demo.toBFlow := by
  intro i hi s x m y m' k s' h
  obtain h := gives_iff.1 h
  simp only [runNode, demo, if_true, Prod.mk.injEq, Except.ok.injEq, BVal.int.injEq] at h
  omega
example : StartsAt demo.toBFlow (.str ['a']) 1 := by
  refine .inr ⟨⟨by simp, by simp, by decide⟩, by decide, by decide, ⟨rfl, by decide⟩, ?_⟩
  intro j' hj
  obtain rfl : j' = 0 := by omega
  rintro ⟨_, h⟩
  revert h
  decide

/-! ### C146 -/

/-- **C146**: the phases of a flow node are the open phases of its nodes, node by node in the order of the flow. -/
theorem train_seq_partial (F : FNode σ A V) (total pre : Nat → Nat)
    (h : F.trainable (F.len - 1) = true → ∃ i, i < F.len ∧ F.trainable i = true ∧ pre i < total i) :
    ∃ l, trainSeq F total pre = .ok l ∧ l.Pairwise (· ≤ ·) ∧
      ∀ i, l.count i = if i < F.len ∧ F.trainable i = true then total i - pre i else 0 := by
  have hcount : ∀ (n i : Nat), ((List.range n).flatMap fun i =>
      if F.trainable i then List.replicate (total i - pre i) i else []).count i =
      if i < n ∧ F.trainable i = true then total i - pre i else 0 := by
    intro n i
    induction n with
    | zero => simp
    | succ n ih =>
      rw [List.range_succ, List.flatMap_append, List.count_append, ih]
      simp only [List.flatMap_cons, List.flatMap_nil, List.append_nil]
      by_cases hn : i = n
      · subst hn
        by_cases ht : F.trainable i = true
        · simp [ht]
        · simp [ht]
      · by_cases ht : F.trainable n = true
        · have hn' : (n == i) = false := by simpa using fun h : n = i => hn h.symm
          rw [if_pos ht, List.count_replicate, hn']
          by_cases hi : i < n
          · have : i < n + 1 := by omega
            simp [hi, this]
          · have : ¬ i < n + 1 := by omega
            simp [hi, this]
        · rw [if_neg ht]
          by_cases hi : i < n
          · have : i < n + 1 := by omega
            simp [hi, this]
          · have : ¬ i < n + 1 := by omega
            simp [hi, this]
  refine ⟨_, ?_, ?_, hcount F.len⟩
  · unfold trainSeq
    simp only
    rw [if_neg]
    rintro ⟨h1, h2⟩
    obtain ⟨i, hi, ht, hp⟩ := h h1
    have := hcount F.len i
    rw [h2] at this
    simp [hi, ht] at this
    omega
  · have : ∀ n, ((List.range n).flatMap fun i =>
      if F.trainable i then List.replicate (total i - pre i) i else []).Pairwise (· ≤ ·) ∧
      ∀ i ∈ ((List.range n).flatMap fun i =>
      if F.trainable i then List.replicate (total i - pre i) i else []), i < n := by
      intro n
      induction n with
      | zero => simp
      | succ n ih =>
        rw [List.range_succ, List.flatMap_append]
        simp only [List.flatMap_cons, List.flatMap_nil, List.append_nil]
        have hr : ∀ j ∈ (if F.trainable n then List.replicate (total n - pre n) n else []), j = n := by
          intro j hj
          split at hj
          · exact List.eq_of_mem_replicate hj
          · cases hj
        refine ⟨List.pairwise_append.2 ⟨ih.1, ?_, ?_⟩, ?_⟩
        · split
          · exact List.pairwise_replicate.2 (.inr (Nat.le_refl n))
          · exact List.Pairwise.nil
        · intro a ha b hb
          rw [hr b hb]
          have := ih.2 a ha
          omega
        · intro i hi
          rcases List.mem_append.1 hi with hi | hi
          · have := ih.2 i hi; omega
          · rw [hr i hi]; omega
    exact (this F.len).1

/-- **C146** fails for a flow node whose nodes are all trained and whose last node is of a trainable kind: asking for the
training sequence raises `IndexError`. -/
theorem train_seq_false (F : FNode σ A V) (total pre : Nat → Nat) (h : F.trainable (F.len - 1) = true)
    (hp : ∀ i, total i ≤ pre i) : trainSeq F total pre = .error .indexError := by
  unfold trainSeq
  simp only
  refine if_pos ⟨h, ?_⟩
  rw [List.flatMap_eq_nil_iff]
  intro i _
  have := hp i
  split
  · rw [show total i - pre i = 0 by omega]; rfl
  · rfl

theorem targetToIndex_int {F : BFlow σ A V} {k j : Int} {cur : Int} (h : targetToIndex F (.int k) cur = .ok (.int j)) :
    j = cur + k ∧ 0 ≤ j ∧ j < F.len := by
  unfold targetToIndex at h
  simp only [reduceCtorEq, if_false] at h
  split at h
  · cases h
  · split at h
    · cases h
    · cases h
      omega

/-- **C146**: training through a flow node is training in the flow: when the flow on its own trains the inner node with a
chunk without an exception, the flow node does the same to the nodes and reports that nothing is left to do. -/
theorem train_refines (F : FNode σ A V) {n nr : Nat} :
    ∀ {k : Nat} {i : BVal V} {x : Option A} {m : Option (Msg V)} {s s' : σ},
      trainChunk F.toTFlow n nr k i x m s = some (.ok (), s') →
      trainFrom F n nr k i x m s = some (.ok (.single none), s') := by
  intro k
  induction k with
  | zero => intro i x m s s' h; cases h
  | succ k ih =>
    intro i x m s s' h
    unfold trainChunk at h
    unfold trainFrom
    cases ho : executeSeq F.toBFlow (some nr) n i x m s with
    | none => rw [ho] at h; cases h
    | some o =>
      rw [ho] at h
      simp only at h ⊢
      cases hr : o.res with
      | error e => rw [hr] at h; cases h
      | ok r =>
        rw [hr] at h
        cases r with
        | single y => cases h
        | pair y m => cases h
        | triple y m t => cases h
        | stop y m =>
          simp only at h ⊢
          cases hb : F.isBi nr with
          | false =>
            simp only [hb, Bool.false_eq_true, if_false] at h ⊢
            generalize F.plainTrain nr o.s y = q at h ⊢
            obtain ⟨q, s1⟩ := q
            cases q with
            | error e => cases h
            | ok u => cases h; rfl
          | true =>
            simp only [hb, if_true] at h ⊢
            generalize F.train nr o.s y m = q at h ⊢
            obtain ⟨q, s1⟩ := q
            cases q with
            | error e => cases h
            | ok r =>
              have hgo : (match targetToIndex F.toBFlow r.parts.2.2 nr with
                  | .error e => some (.error e, s1)
                  | .ok i' => trainChunk F.toTFlow n nr k i' r.parts.1 r.parts.2.1 s1) = some (.ok (), s') →
                  (match r.parts.2.2 with
                  | .int j =>
                    if (nr : Int) + j = F.len then
                      some (.ok (if truthyMsg r.parts.2.1 then .pair r.parts.1 r.parts.2.1 else .single r.parts.1), s1)
                    else if (nr : Int) + j = -1 then some (.ok (.triple r.parts.1 r.parts.2.1 (.int (-1))), s1)
                    else trainFrom F n nr k (.int ((nr : Int) + j)) r.parts.1 r.parts.2.1 s1
                  | t =>
                    match targetToIndex F.toBFlow t nr with
                    | .error e => some (.error e, s1)
                    | .ok (.int j) => trainFrom F n nr k (.int j) r.parts.1 r.parts.2.1 s1
                    | .ok _ => some (.ok (.triple r.parts.1 r.parts.2.1 t), s1)) =
                    some (.ok (.single none), s') := by
                intro h
                cases ht : targetToIndex F.toBFlow r.parts.2.2 nr with
                | error e => rw [ht] at h; cases h
                | ok i' =>
                  rw [ht] at h
                  simp only at h
                  have hi' : ∃ j, i' = .int j := by
                    cases k with
                    | zero => cases h
                    | succ k =>
                      cases i' with
                      | int j => exact ⟨j, rfl⟩
                      | none =>
                        exfalso
                        unfold trainChunk at h
                        cases n <;> simp [executeSeq, runFuel, seqStep] at h
                      | str t =>
                        exfalso
                        unfold trainChunk at h
                        cases n <;> simp [executeSeq, runFuel, seqStep] at h
                      | other v =>
                        exfalso
                        unfold trainChunk at h
                        cases n <;> simp [executeSeq, runFuel, seqStep] at h
                  obtain ⟨j, rfl⟩ := hi'
                  generalize r.parts.2.2 = t at ht ⊢
                  cases t with
                  | int j' =>
                    obtain ⟨e1, e2, e3⟩ := targetToIndex_int ht
                    subst e1
                    simp only
                    rw [if_neg (by omega), if_neg (by omega)]
                    exact ih h
                  | none => simp only [ht]; exact ih h
                  | str t => simp only [ht]; exact ih h
                  | other v => simp only [ht]; exact ih h
              cases r with
              | single y =>
                cases y with
                | none => cases h; rfl
                | some y => exact hgo h
              | pair y m => exact hgo h
              | triple y m t => exact hgo h

/-- **C146**: the same for the training function of the flow node, which starts where an execution would start. -/
theorem train_flownode (F : FNode σ A V) (hlen : 0 < F.len) {n nr : Nat} {x : Option A} {m : Option (Msg V)} {s s' : σ}
    {last : BVal V} {i : Nat} (hs : StartsAt F.toBFlow last i)
    (h : trainChunk F.toTFlow n nr n (.int i) x m s = some (.ok (), s')) :
    train F n nr x m ⟨s, last⟩ = some (.ok (.single none), ⟨s', .none⟩) := by
  obtain ⟨h1, h2, hi⟩ := start_index hs hlen s
  unfold train
  simp only [h1, h2, train_refines F h]

/-- **C146**: ending a phase through a flow node is ending it in the flow: when the flow on its own does it without an
exception, the flow node does the same to the nodes. -/
theorem stop_refines (F : FNode σ A V) {n nr : Nat} {m : Option (Msg V)} {s s' : σ}
    (h : stopPhase F.toTFlow n nr m s = some (.ok (), s')) :
    ∃ r, stopTraining F n nr m s = some (.ok r, s') := by
  unfold stopPhase at h
  unfold stopTraining
  generalize F.stop nr s m = q at h ⊢
  obtain ⟨q, s1⟩ := q
  cases q with
  | error e => cases h
  | ok r =>
    have hgo : (if r.parts.2.2 = .str sExit then some (.ok (), s1)
        else
          match targetToIndex F.toBFlow r.parts.2.2 nr with
          | .error e => some (.error e, s1)
          | .ok i =>
            match executeSeq F.toBFlow none n i r.parts.1 r.parts.2.1 s1 with
            | none => none
            | some o =>
              match o.res with
              | .error e => some (.error e, o.s)
              | .ok (.triple _ _ t) =>
                if t = .int 1 ∨ t = .int (-1) ∨ t = .str sExit then some (.ok (), o.s) else some (.error .biflow, o.s)
              | .ok _ => some (.ok (), o.s)) = some (Except.ok (ε := Err) (), s') →
        ∃ r', afterStop F n nr r.parts.1 r.parts.2.1 r.parts.2.2 s1 = some (.ok r', s') := by
      intro h
      generalize r.parts.2.2 = t at h ⊢
      by_cases ht : t = .str sExit
      · subst ht
        rw [if_pos rfl] at h
        cases h
        refine ⟨.triple r.parts.1 r.parts.2.1 (.str sExit), ?_⟩
        unfold afterStop
        simp [targetToIndex]
      · rw [if_neg ht] at h
        cases hi : targetToIndex F.toBFlow t nr with
        | error e => rw [hi] at h; cases h
        | ok i =>
          rw [hi] at h
          simp only at h
          cases ho : executeSeq F.toBFlow none n i r.parts.1 r.parts.2.1 s1 with
          | none => rw [ho] at h; cases h
          | some o =>
            rw [ho] at h
            simp only at h
            cases hr : o.res with
            | error e => rw [hr] at h; cases h
            | ok q =>
              rw [hr] at h
              have hs : o.s = s' := by
                cases q with
                | single y => cases h; rfl
                | pair y m => cases h; rfl
                | stop y m => cases h; rfl
                | triple y m t =>
                  simp only at h
                  split at h <;> cases h
                  rfl
              subst hs
              have hgo : ∀ j, i = .int j →
                  afterStop.go F n r.parts.1 r.parts.2.1 s1 (.int j) = some (.ok (toRes q), o.s) := by
                rintro j rfl
                unfold afterStop.go
                simp only [ho, hr]
              have hij : ∃ j, i = .int j := by
                cases i with
                | int j => exact ⟨j, rfl⟩
                | none =>
                  exfalso
                  cases n with
                  | zero => cases ho
                  | succ n =>
                    simp only [executeSeq, runFuel, seqStep] at ho
                    cases ho
                    cases hr
                | str t' =>
                  exfalso
                  cases n with
                  | zero => cases ho
                  | succ n =>
                    simp only [executeSeq, runFuel, seqStep] at ho
                    cases ho
                    cases hr
                | other v =>
                  exfalso
                  cases n with
                  | zero => cases ho
                  | succ n =>
                    simp only [executeSeq, runFuel, seqStep] at ho
                    cases ho
                    cases hr
              obtain ⟨j, rfl⟩ := hij
              refine ⟨toRes q, ?_⟩
              unfold afterStop
              cases t with
              | int j' =>
                obtain ⟨e1, e2, e3⟩ := targetToIndex_int hi
                subst e1
                simp only
                rw [if_neg (by omega), if_neg (by omega)]
                exact hgo _ rfl
              | none => simp only [hi]; exact hgo _ rfl
              | str t => simp only [hi]; exact hgo _ rfl
              | other v => simp only [hi]; exact hgo _ rfl
    cases r with
    | single y =>
      cases y with
      | none => cases h; exact ⟨_, rfl⟩
      | some y => exact hgo h
    | pair y m => exact hgo h
    | triple y m t => exact hgo h

/-- **C146** fails for the last inner node: a result of its training without a target, which in a flow leads to the next
node, raises `BiFlowException` in a flow node, whatever follows the flow node. -/
theorem train_last_no_target_false (F : FNode σ A V) (hlen : 0 < F.len) {n k : Nat} {x y : Option A}
    {m m' : Option (Msg V)} {s s' : σ} (hb : F.isBi (F.len - 1) = true)
    (h : F.train (F.len - 1) s x m = (.ok (.pair y m'), s')) :
    trainFrom F (n + 1) (F.len - 1) (k + 1) (.int ((F.len - 1 : Nat) : Int)) x m s = some (.error .biflow, s') := by
  have ho : executeSeq F.toBFlow (some (F.len - 1)) (n + 1) (.int ((F.len - 1 : Nat) : Int)) x m s =
      some ⟨.ok (.stop x m), s, []⟩ := by
    simp [executeSeq, runFuel, seqStep]
  unfold trainFrom
  simp only [ho, hb, if_true, h, BRes.parts]
  have : targetToIndex F.toBFlow .none ((F.len - 1 : Nat) : Int) = .error .biflow := by
    unfold targetToIndex
    simp only [reduceCtorEq, if_false, if_true]
    rw [if_neg (by omega), if_pos (by omega)]
  simp only [this]

end Bi.FlowNode
