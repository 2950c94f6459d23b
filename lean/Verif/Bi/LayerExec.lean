import Verif.Bi.LayerMsg
import Verif.Bi.Tracer

/-!
# Executing a bi layer with a message; copies of traced nodes

The theorem about `BiNode.execute` (binode.py:129-163) for a clone bi layer (C143), and `wrapped_getstate`
(bimdp/inspection/tracer.py 318-334) for traced nodes (C317). -/

namespace Bi.Layer

open Py

variable {σ C V : Type}

/-- A result with a target, if it has none of its own. -/
def Targeted (r : LRes C V) (target : BVal (LVal C V)) (r' : LRes C V) : Prop :=
  match r with
  | .triple y m t => r' = .triple y m t
  | .pair y m => (target = .none ∧ r' = .pair y m) ∨ (target ≠ .none ∧ r' = .triple y m target)
  | .single y => (target = .none ∧ r' = .single y) ∨ (target ≠ .none ∧ r' = .triple y none target)

/-- The entry of a message for the layer: the one addressed to it, or else the plain one. -/
def entry (nodeId : Option Str) (d : LMsg C V) (k : Str) : Option (BVal (LVal C V)) := (mine nodeId d k).or (Dict.get d k)

theorem combine_targeted (r : LRes C V) (target : BVal (LVal C V)) : Targeted r target (combine r none target) := by
  cases r with
  | triple y m t => rfl
  | pair y m => cases target <;> simp [Targeted, combine, combineMsg, truthyMsg, BVal.isSome]
  | single y => cases target <;> simp [Targeted, combine, truthyMsg, BVal.isSome]

theorem mine_same {nodeId : Option Str} (hg : GoodId nodeId) {m m' : LMsg C V} {key k : Str} (hk : k ≠ key)
    (h : ∀ key', ¬ IsFor nodeId key' key → Dict.get m' key' = Dict.get m key') : mine nodeId m' k = mine nodeId m k := by
  unfold mine
  cases nodeId with
  | none => rfl
  | some id =>
    refine h _ ?_
    rintro ⟨id', e, he⟩
    cases e
    exact hk (addr_inj (hg id rfl).2 (hg id rfl).2 he).2

theorem not_addressed {nodeId : Option Str} {key : Str} (h : '-' ∉ key) : ¬ Addressed nodeId key := by
  rintro ⟨k, id, _, he⟩
  rw [addr_def] at he
  exact h (by rw [he]; simp)

theorem get_filter_args (m : LMsg C V) (keys : List Str) (k : Str) (hk : k ∈ keys) :
    Dict.get (m.filter fun e => decide (e.1 ∈ keys)) k = Dict.get m k := by
  induction m with
  | nil => rfl
  | cons e r ih =>
    obtain ⟨a, b⟩ := e
    rw [List.filter_cons]
    by_cases ha : a = k
    · subst ha
      rw [if_pos (by simpa using hk)]
      simp [Dict.get]
    · split
      · simp only [Dict.get, if_neg ha, ih]
      · simp only [Dict.get, if_neg ha, ih]

/-- **C143** (execution): a message with an entry `self` or `x` for the layer (addressed to it or plain) is refused with a TypeError and nothing
happens; otherwise the layer gets the message without the entries addressed to it, and a target in the message is the target of the result unless
the layer gives one. -/
theorem layer_execute {nodeId : Option Str} (hg : GoodId nodeId) (f : NodeFn σ C V) (x : Option (Arr C)) {d : LMsg C V} (hd : Dict.Ok d)
    {ids : List (Str × Str)} (hi : getMsgIdKeys nodeId d = .ok ids) (l : LSt σ) :
    (entry nodeId d kSelf ≠ none ∨ entry nodeId d kX ≠ none → nodeExecute nodeId f x d l = (.error .typeError, l)) ∧
    (entry nodeId d kSelf = none → entry nodeId d kX = none → ∃ d',
      (∀ key, Addressed nodeId key → Dict.get d' key = none) ∧ (∀ key, ¬ Addressed nodeId key → Dict.get d' key = Dict.get d key) ∧
      (∀ e l', run nodeId f x (some d') l = (.error e, l') → nodeExecute nodeId f x d l = (.error e, l')) ∧
      ∀ r l', run nodeId f x (some d') l = (.ok r, l') →
        ∃ r', nodeExecute nodeId f x d l = (.ok r', l') ∧ Targeted r ((entry nodeId d kTarget).getD .none) r') := by
  have hplain : ¬ Addressed nodeId kSelf ∧ ¬ Addressed nodeId kX := ⟨not_addressed (by decide), not_addressed (by decide)⟩
  have key : nodeExecute nodeId f x d l =
      (let t := extractKey kTarget d ids
       let n := extractKey kMethod t.2.1 t.2.2
       let e := extractArgs [kSelf, kX, kMsg] n.2.1 n.2.2
       if (Dict.get e.2 kSelf).isSome || (Dict.get e.2 kX).isSome then (.error .typeError, l)
       else match run nodeId f x (some e.1) l with
        | (.ok r, l') => (.ok (combine r none t.1), l')
        | (.error e, l') => (.error e, l')) := by
    unfold nodeExecute
    simp only [M.bind_def, M.lift_def, hi]
    split
    · rfl
    · simp only [M.bind_def]
      generalize run nodeId f x _ l = q
      obtain ⟨q, l'⟩ := q
      cases q <;> rfl
  obtain ⟨a1, a2, a3, a4⟩ := extractKey_spec hg kTarget (Inv.start hg hd hi)
  simp only at key
  generalize extractKey kTarget d ids = t at key a1 a2 a3 a4
  obtain ⟨_, b2, b3, b4⟩ := extractKey_spec hg kMethod a4
  generalize extractKey kMethod t.2.1 t.2.2 = n at key b2 b3 b4
  obtain ⟨c1, c2, c3, _⟩ := argsLoop_spec hg [kSelf, kX, kMsg]
    (n.2.1.filter fun e => decide (e.1 ∈ [kSelf, kX, kMsg])) b4
  change (∀ key, Addressed nodeId key → Dict.get (extractArgs [kSelf, kX, kMsg] n.2.1 n.2.2).1 key = none) at c1
  change (∀ key, ¬ Addressed nodeId key → Dict.get (extractArgs [kSelf, kX, kMsg] n.2.1 n.2.2).1 key = Dict.get n.2.1 key) at c2
  change (∀ k, Dict.get (extractArgs [kSelf, kX, kMsg] n.2.1 n.2.2).2 k = _) at c3
  generalize extractArgs [kSelf, kX, kMsg] n.2.1 n.2.2 = q at key c1 c2 c3
  have harg : ∀ k ∈ [kSelf, kX], ¬ Addressed nodeId k → Dict.get q.2 k = entry nodeId d k := by
    intro k hk hn
    have hk3 : k ∈ [kSelf, kX, kMsg] := by
      simp only [List.mem_cons, List.not_mem_nil, or_false] at hk ⊢
      tauto
    have ht : k ≠ kTarget := by
      simp only [List.mem_cons, List.not_mem_nil, or_false] at hk
      rcases hk with rfl | rfl <;> decide
    have hm : k ≠ kMethod := by
      simp only [List.mem_cons, List.not_mem_nil, or_false] at hk
      rcases hk with rfl | rfl <;> decide
    rw [c3, if_pos hk3, get_filter_args _ _ _ hk3, b3 k (fun h => hn ⟨_, h⟩), a3 k (fun h => hn ⟨_, h⟩), mine_same hg hm b3, mine_same hg ht a3]
    rfl
  rw [harg kSelf (by simp) hplain.1, harg kX (by simp) hplain.2] at key
  constructor
  · intro h
    rw [key, if_pos]
    rw [Bool.or_eq_true]
    exact h.imp Option.isSome_iff_ne_none.2 Option.isSome_iff_ne_none.2
  · intro h1 h2
    rw [h1, h2] at key
    simp only [Option.isSome_none, Bool.or_self, Bool.false_eq_true, if_false] at key
    refine ⟨q.1, c1, fun k hk => ?_, fun e l' hr => ?_, fun r l' hr => ?_⟩
    · rw [c2 k hk, b3 k (fun h => hk ⟨_, h⟩), a3 k (fun h => hk ⟨_, h⟩)]
    · rw [key, hr]
    · refine ⟨_, by rw [key, hr], ?_⟩
      rw [a1]
      exact combine_targeted r _

/-- A target addressed to the layer; an entry `x` addressed to it. -/
example : ((nodeExecute (σ := Nat) (C := Char) (V := Nat) (some ['l']) (fun s x _ => (.ok (.single x), s))
      (some ⟨[], 1, ['e', 'f']⟩) [(addr ['l'] kTarget, .int 1)] ⟨.shared 0 2, false⟩).1 matches .ok (.triple _ none (.int 1))) = true ∧
    ((nodeExecute (σ := Nat) (C := Char) (V := Nat) (some ['l']) (fun s x _ => (.ok (.single x), s))
      (some ⟨[], 1, ['e', 'f']⟩) [(addr ['l'] kX, .int 1)] ⟨.shared 0 2, false⟩).1 matches .error .typeError) = true := by
  constructor <;> rfl

end Bi.Layer

namespace Bi.Tracer

variable {S : Type}

/-- What is pickled or copied of an object (318-334): its `__dict__`, or what the tracer's `__getstate__` gives if that is in the instance. -/
def getState (o : Obj S) : Obj S :=
  if o.dict .getstate = some .mark then
    if o.dict .flag = none then o
    else { o with dict := del (methods.foldl undecorateMeth (del o.dict .flag)) .getstate }
  else o

/-- **C317**: copies of a traced node are those of the node itself: they have no trace of the tracer, and can be used after the trace. -/
theorem traced_copy (o : Obj S) (h : Clean o) (s : S) : getState { decorate o with state := s } = { o with state := s } := by
  rw [← undecorate_decorate o h s]
  have hg : ({ decorate o with state := s } : Obj S).dict .getstate = some .mark := rfl
  have hf : ({ decorate o with state := s } : Obj S).dict .flag = some .mark := rfl
  unfold getState undecorate
  rw [if_pos hg, hf]

end Bi.Tracer
