import Verif.Flow.Container

/-! # Properties of Flow as a container (C10-C12) -/

namespace Mdp.Flow

open Py Dims

variable {N : Type} [Dims N]

/-! ## Specification -/

/-- No node with a set `output_dim` is directly followed by a node with a different set `input_dim`. -/
def Consistent (l : List N) : Prop :=
  ∀ (i : Nat) (m n : N) (a b : Nat), l[i]? = some m → l[i + 1]? = some n →
    out m = some a → inp n = some b → a = b

/-- Where a Python list inserts / starts a slice for a possibly negative or too large position. -/
def pyPos (len : Nat) (i : Int) : Nat :=
  if i < 0 then (i + len).toNat else min i.toNat len

/-! ## Lemmas -/

theorem checkDim_ok {o i : Option Nat} (h : checkDim o i = .ok ()) (a b : Nat) (ho : o = some a)
    (hi : i = some b) : a = b := by
  subst ho hi
  by_cases hab : a = b
  · exact hab
  · exfalso
    unfold checkDim at h
    by_cases ha : a = 0
    · subst ha; simp [hab] at h
    · simp [hab, ha] at h

theorem consistent_cons {a b : N} {r : List N} :
    Consistent (a :: b :: r) ↔
      (∀ x y, out a = some x → inp b = some y → x = y) ∧ Consistent (b :: r) := by
  constructor
  · intro h
    refine ⟨fun x y => h 0 a b x y rfl rfl, fun i m n x y h1 h2 => h (i + 1) m n x y ?_ ?_⟩
    · simpa using h1
    · simpa using h2
  · rintro ⟨h1, h2⟩ i m n x y hm hn
    cases i with
    | zero =>
      simp at hm hn
      subst hm hn
      exact h1 x y
    | succ i => exact h2 i m n x y (by simpa using hm) (by simpa using hn)

theorem checkNodes_ok {l : List N} (h : checkNodes l = .ok ()) : Consistent l := by
  induction l with
  | nil => intro i m n a b h; simp at h
  | cons a r ih =>
    cases r with
    | nil => intro i m n a b h1 h2; simp at h2
    | cons b r =>
      unfold checkNodes at h
      simp only [bind, Except.bind] at h
      split at h
      · cases h
      · next u hd =>
        rw [consistent_cons]
        exact ⟨fun x y hx hy => checkDim_ok hd x y hx hy, ih h⟩

theorem accept_spec (fl l : List N) :
    ((accept fl l).1 = .ok () ∧ (accept fl l).2 = l ∧ Consistent l) ∨
    (∃ e, accept fl l = (.error e, fl)) := by
  unfold accept
  cases h : checkNodes l with
  | error e => exact .inr ⟨e, rfl⟩
  | ok u => exact .inl ⟨rfl, rfl, checkNodes_ok h⟩

theorem mk_ok {l l' : List N} (h : mk l = .ok l') : l' = l ∧ Consistent l := by
  unfold mk at h
  simp only [bind, Except.bind] at h
  split at h
  · cases h
  · next hc => cases h; exact ⟨rfl, checkNodes_ok hc⟩

/-- An operation that either succeeds with a consistent list or leaves the flow alone. -/
def Safe {r : Type} (fl : List N) (x : Except Err r × List N) : Prop :=
  (Node.isOk x.1 = true ∧ Consistent x.2) ∨ (Node.isOk x.1 = false ∧ x.2 = fl)

theorem accept_safe (fl l : List N) : Safe fl (accept fl l) := by
  rcases accept_spec fl l with ⟨h1, h2, h3⟩ | ⟨e, h⟩
  · left; rw [h1, h2]; exact ⟨rfl, h3⟩
  · right; rw [h]; exact ⟨rfl, rfl⟩

theorem setItem_safe (fl : List N) (k : Key) (v : Rhs N) : Safe fl (setItem fl k v) := by
  unfold setItem
  repeat' split
  all_goals first | exact accept_safe _ _ | exact .inr ⟨rfl, rfl⟩

theorem delItem_safe (fl : List N) (k : Key) : Safe fl (delItem fl k) := by
  unfold delItem
  repeat' split
  all_goals first | exact accept_safe _ _ | exact .inr ⟨rfl, rfl⟩

theorem extend_safe (fl : List N) (v : Operand N) : Safe fl (extend fl v) := by
  unfold extend
  split
  · exact setItem_safe _ _ _
  · exact .inr ⟨rfl, rfl⟩

theorem pop_safe (fl : List N) (i : Int) : Safe fl (pop fl i) := by
  unfold pop
  split
  · exact .inr ⟨rfl, rfl⟩
  · have := delItem_safe fl (.idx i)
    split
    · next e fl' heq =>
      rw [heq] at this
      rcases this with ⟨h, _⟩ | ⟨_, h⟩
      · cases h
      · exact .inr ⟨rfl, h⟩
    · next fl' heq =>
      rw [heq] at this
      rcases this with ⟨_, h⟩ | ⟨h, _⟩
      · exact .inl ⟨rfl, h⟩
      · cases h

theorem add_ok {fl l : List N} {v : Operand N} (h : add fl v = .ok l) :
    Consistent l ∧ ((∃ l', v = .flow l' ∧ l = fl ++ l') ∨ (∃ n, v = .node n ∧ l = fl ++ [n])) := by
  unfold add at h
  cases v with
  | flow l' =>
    simp only [bind, Except.bind] at h
    split at h
    · cases h
    · obtain ⟨rfl, hc⟩ := mk_ok h; exact ⟨hc, .inl ⟨_, rfl, rfl⟩⟩
  | node n =>
    simp only [bind, Except.bind] at h
    split at h
    · cases h
    · obtain ⟨rfl, hc⟩ := mk_ok h; exact ⟨hc, .inr ⟨_, rfl, rfl⟩⟩
  | other => cases h

theorem slice_ok {fl l : List N} {a b c : Option Int} (h : getItemSlice fl a b c = .ok l) :
    Consistent l ∧ getSlice fl a b c = some l := by
  unfold getItemSlice at h
  split at h
  · cases h
  · next l' hl =>
    simp only [bind, Except.bind] at h
    split at h
    · cases h
    · obtain ⟨rfl, hc⟩ := mk_ok h; exact ⟨hc, hl⟩

/-- An operation other than `+=`. -/
def NoIadd : Op N → Prop
  | .iadd _ => False
  | _ => True

theorem run_safe (fl : List N) (o : Op N) (h : NoIadd o) :
    ((o.run fl).1 = true ∧ Consistent (o.run fl).2) ∨ ((o.run fl).1 = false ∧ (o.run fl).2 = fl) := by
  cases o with
  | set k v => exact setItem_safe fl k v
  | del k => exact delItem_safe fl k
  | append v => exact setItem_safe fl _ _
  | extend v => exact extend_safe fl v
  | insert i v => exact setItem_safe fl _ _
  | pop i => exact pop_safe fl i
  | add v =>
    simp only [Op.run]
    split
    · next l hl => exact .inl ⟨rfl, (add_ok hl).1⟩
    · exact .inr ⟨rfl, rfl⟩
  | slice a b c =>
    simp only [Op.run]
    split
    · next l hl => exact .inl ⟨rfl, (slice_ok hl).1⟩
    · exact .inr ⟨rfl, rfl⟩
  | iadd v => exact h.elim

/-! ## C10 -/

/-- C10: a flow can only be constructed from a consistent list. -/
theorem construct_consistent (l l' : List N) (h : mk l = .ok l') : l' = l ∧ Consistent l := mk_ok h

/-- C10: conversely a consistent list is accepted, provided no node has output dimension zero. (With
`output_dim = 0` and an unset next `input_dim` the check itself crashes, see
`zero_dim_check_crashes`.) -/
theorem construct_accepts (l : List N) (h : Consistent l) (h0 : ∀ n ∈ l, out n ≠ some 0) :
    mk l = .ok l := by
  have : checkNodes l = .ok () := by
    induction l with
    | nil => rfl
    | cons a r ih =>
      cases r with
      | nil => rfl
      | cons b r =>
        rw [consistent_cons] at h
        have hd : checkDim (out a) (inp b) = .ok () := by
          have ha := h0 a (by simp)
          unfold checkDim
          cases ho : out a with
          | none => simp
          | some x =>
            rw [ho] at ha
            have hx : x ≠ 0 := fun h => ha (by rw [h])
            cases hi : inp b with
            | none => simp [hx]
            | some y => simp [h.1 x y ho hi]
        unfold checkNodes
        simp only [bind, Except.bind, hd]
        exact ih h.2 (fun n hn => h0 n (by simp [hn]))
  unfold mk
  simp [bind, Except.bind, this]

/-- C10, proved part: from a consistent flow, any sequence of container operations other than `+=`,
whether they return or raise, keeps the flow consistent.
Missing (and false, see `iadd_breaks_consistency`): histories with a failing `+=`. -/
theorem ops_consistent_partial (fl : List N) (h : Consistent fl) (ops : List (Op N))
    (hops : ∀ o ∈ ops, NoIadd o) : Consistent (runOps fl ops) := by
  induction ops generalizing fl with
  | nil => exact h
  | cons o ops ih =>
    apply ih
    · rcases run_safe fl o (hops o (by simp)) with ⟨_, h'⟩ | ⟨_, h'⟩
      · exact h'
      · show Consistent (o.run fl).2; rw [h']; exact h
    · exact fun o ho => hops o (by simp [ho])

/-- C10: a `+=` that returns also leaves the flow consistent. -/
theorem iadd_ok_consistent (fl : List N) (v : Operand N) (h : (iadd fl v).1 = .ok ()) :
    Consistent (iadd fl v).2 := by
  unfold iadd at h ⊢
  cases v with
  | flow l => exact checkNodes_ok h
  | node n => exact checkNodes_ok h
  | other => cases h

/-- Pairs of dimensions as nodes, for the examples. -/
instance : Dims (Option Nat × Option Nat) := ⟨Prod.fst, Prod.snd⟩

/-- C10 is false for `+=`: the mismatched node stays in the flow although the operation raised. -/
theorem iadd_breaks_consistency :
    ∃ (fl : List (Option Nat × Option Nat)) (v : Operand (Option Nat × Option Nat)),
      mk fl = .ok fl ∧ (iadd fl v).1 = .error .value ∧ ¬ Consistent (iadd fl v).2 := by
  refine ⟨[(some 2, some 3)], .node (some 4, some 1), rfl, rfl, fun h => ?_⟩
  have := h 0 (some 2, some 3) (some 4, some 1) 3 4 rfl rfl rfl rfl
  omega

/-- The consistency check itself raises TypeError on a consistent list with an output dimension 0
followed by an unset input dimension. -/
theorem zero_dim_check_crashes :
    ∃ l : List (Option Nat × Option Nat), Consistent l ∧ mk l = .error .type := by
  refine ⟨[(some 2, some 0), (none, none)], ?_, rfl⟩
  intro i m n a b h1 h2 h3 h4
  cases i with
  | zero => simp at h2; subst h2; cases h4
  | succ i => simp at h2

/-- A flow and a history for the examples. -/
def demoFlow : List (Option Nat × Option Nat) := [(some 2, some 3), (some 3, none), (some 7, some 1)]
def demoOps : List (Op (Option Nat × Option Nat)) := [.insert (-1) (.node (none, some 7)), .pop 0]

example : Consistent demoFlow ∧ (∀ o ∈ demoOps, NoIadd o) ∧
    runOps demoFlow demoOps = [(some 3, none), (none, some 7), (some 7, some 1)] := by
  refine ⟨checkNodes_ok rfl, ?_, rfl⟩
  simp [demoOps, NoIadd]

/-! ## C11 -/

/-- C11, proved part: a container operation other than `+=` that raises leaves the node list exactly as
it was. Missing (and false, see `failing_iadd_changes_flow`): `+=`. -/
theorem failing_op_unchanged_partial (fl : List N) (o : Op N) (h : NoIadd o) (hf : (o.run fl).1 = false) :
    (o.run fl).2 = fl := by
  rcases run_safe fl o h with ⟨h1, _⟩ | ⟨_, h2⟩
  · rw [hf] at h1; cases h1
  · exact h2

/-- C11 is false for `+=`. -/
theorem failing_iadd_changes_flow :
    ∃ (fl : List (Option Nat × Option Nat)) (v : Operand (Option Nat × Option Nat)),
      mk fl = .ok fl ∧ (Op.iadd v).run fl = (false, fl ++ [(some 4, some 1)]) :=
  ⟨[(some 2, some 3)], .node (some 4, some 1), rfl, rfl⟩

example : NoIadd (Op.append (.node ((some 9, none) : Option Nat × Option Nat))) ∧
    ((Op.append (.node (some 9, none))).run demoFlow).1 = false := ⟨trivial, rfl⟩

/-! ## C12 -/

theorem clampBound_pos (len : Nat) (i : Int) : clampBound len false i = pyPos len i := by
  unfold clampBound pyPos
  simp only [Bool.false_eq_true, if_false]
  split
  · split <;> omega
  · split <;> omega

theorem pyPos_le (len : Nat) (i : Int) : pyPos len i ≤ len := by unfold pyPos; split <;> omega

theorem sliceBounds_step1 (len : Nat) (a b : Option Int) :
    sliceBounds len a b 1 = ((((a.map (pyPos len)).getD 0 : Nat) : Int), (((b.map (pyPos len)).getD len : Nat) : Int)) := by
  unfold sliceBounds
  cases a <;> cases b <;> simp [clampBound_pos]

theorem setSlice_step1 {N : Type} (l vs : List N) (a b : Option Int) :
    setSlice l a b none vs =
      let p := (a.map (pyPos l.length)).getD 0
      let q := (b.map (pyPos l.length)).getD l.length
      some (l.take p ++ vs ++ l.drop (max p q)) := by
  unfold setSlice
  rw [Option.getD_none, if_neg (by decide), sliceBounds_step1]
  simp only [if_true, Int.toNat_natCast]
  congr 3
  split <;> omega

theorem filterMap_range {N : Type} (l : List N) (p n : Nat) :
    (List.range n).filterMap (fun k => l[p + k]?) = (l.drop p).take n := by
  induction n with
  | zero => simp
  | succ n ih =>
    rw [List.range_succ, List.filterMap_append, ih, List.take_add_one, List.getElem?_drop]
    congr 1

theorem getSlice_step1 {N : Type} (l : List N) (a b : Option Int) :
    getSlice l a b none =
      some ((l.take ((b.map (pyPos l.length)).getD l.length)).drop ((a.map (pyPos l.length)).getD 0)) := by
  have hb : (b.map (pyPos l.length)).getD l.length ≤ l.length := by
    cases b with
    | none => simp
    | some i => simp [pyPos_le]
  unfold getSlice sliceIdx
  rw [Option.getD_none, if_neg (by decide), sliceBounds_step1]
  generalize (a.map (pyPos l.length)).getD 0 = p
  generalize (b.map (pyPos l.length)).getD l.length = q at hb
  simp only [Option.some.injEq]
  have hn : sliceLen (p : Int) q 1 = q - p := by
    unfold sliceLen
    simp only [show ¬ ((1 : Int) < 0) by decide, if_false, Int.ediv_one]
    split <;> omega
  rw [hn, List.filterMap_map, List.drop_take]
  have := filterMap_range l p (q - p)
  rw [← this]
  congr 1
  funext k
  simp only [Function.comp_apply, Int.mul_one]
  congr 1

theorem allNodes_map {N : Type} (l : List N) : allNodes (l.map Val.node) = some l := by
  induction l with
  | nil => rfl
  | cons a r ih => simp [allNodes, ih]

theorem accept_ok {fl l : List N} (h : (accept fl l).1 = .ok ()) : (accept fl l).2 = l := by
  rcases accept_spec fl l with ⟨_, h2, _⟩ | ⟨e, h'⟩
  · exact h2
  · rw [h'] at h; cases h

theorem setItem_slice_ok {fl vs : List N} {a b c : Option Int}
    (h : (setItem fl (.slice a b c) (.many (vs.map .node))).1 = .ok ()) :
    setSlice fl a b c vs = some (setItem fl (.slice a b c) (.many (vs.map .node))).2 := by
  unfold setItem at h ⊢
  simp only [rhsNodes, allNodes_map] at h ⊢
  cases hs : setSlice fl a b c vs with
  | none => rw [hs] at h; cases h
  | some l' =>
    rw [hs] at h
    simp only at h ⊢
    rw [accept_ok h]

/-- C12: a successful `append` adds the node at the end. -/
theorem append_list (fl : List N) (n : N) (h : (append fl (.node n)).1 = .ok ()) :
    (append fl (.node n)).2 = fl ++ [n] := by
  have := setItem_slice_ok (vs := [n]) h
  rw [setSlice_step1] at this
  have hp : pyPos fl.length fl.length = fl.length := by unfold pyPos; split <;> omega
  simp only [Option.map_some, Option.getD_some, hp, List.take_length, Nat.max_self, List.drop_length,
    List.append_nil, Option.some.injEq] at this
  exact this.symm

/-- C12: a successful `extend` adds all nodes of the other flow at the end. -/
theorem extend_list (fl l : List N) (h : (extend fl (.flow l)).1 = .ok ()) :
    (extend fl (.flow l)).2 = fl ++ l := by
  have := setItem_slice_ok (vs := l) h
  rw [setSlice_step1] at this
  have hp : pyPos fl.length fl.length = fl.length := by unfold pyPos; split <;> omega
  simp only [Option.map_some, Option.getD_some, hp, List.take_length, Nat.max_self, List.drop_length,
    List.append_nil, Option.some.injEq] at this
  exact this.symm

/-- C12: a successful `insert` puts the node before position `i`, counted from the end when negative and
clamped to the ends when out of range. -/
theorem insert_list (fl : List N) (i : Int) (n : N) (h : (insert fl i (.node n)).1 = .ok ()) :
    (insert fl i (.node n)).2 =
      fl.take (pyPos fl.length i) ++ [n] ++ fl.drop (pyPos fl.length i) := by
  have := setItem_slice_ok (vs := [n]) h
  rw [setSlice_step1] at this
  simp only [Option.map_some, Option.getD_some, Nat.max_self, Option.some.injEq] at this
  exact this.symm

/-- C12: item access is list access: non-negative indices count from the front, negative ones from the
end, everything else is IndexError. -/
theorem getItem_list {N : Type} (fl : List N) (k : Nat) :
    (∀ n, fl[k]? = some n → getItem fl k = .ok n ∧ getItem fl ((k : Int) - fl.length) = .ok n) ∧
    (fl.length ≤ k → getItem fl k = .error .index ∧ getItem fl (-(k : Int) - 1) = .error .index) := by
  constructor
  · intro n hn
    have hk : k < fl.length := by
      rw [List.getElem?_eq_some_iff] at hn
      exact hn.1
    have h1 : normIdx fl.length k = some k := by
      unfold normIdx
      simp only [show ¬ ((k : Int) < 0) by omega, if_false]
      rw [if_pos (by omega)]
      simp
    have h2 : normIdx fl.length ((k : Int) - fl.length) = some k := by
      unfold normIdx
      simp only [show ((k : Int) - fl.length < 0) by omega, if_true]
      rw [if_pos (by omega)]
      congr 1
      omega
    simp [getItem, h1, h2, hn]
  · intro hk
    have h1 : normIdx fl.length k = none := by
      unfold normIdx
      simp only [show ¬ ((k : Int) < 0) by omega, if_false]
      rw [if_neg (by omega)]
    have h2 : normIdx fl.length (-(k : Int) - 1) = none := by
      unfold normIdx
      simp only [show (-(k : Int) - 1 < 0) by omega, if_true]
      rw [if_neg (by omega)]
    simp [getItem, h1, h2]

/-- C12: a successful `pop` returns the node at the index and removes exactly it. -/
theorem pop_list (fl : List N) (i : Int) (n : N) (h : (pop fl i).1 = .ok n) :
    ∃ k, normIdx fl.length i = some k ∧ fl[k]? = some n ∧ (pop fl i).2 = fl.take k ++ fl.drop (k + 1) := by
  unfold pop at h ⊢
  cases hk : normIdx fl.length i with
  | none => simp [getItem, hk] at h
  | some k =>
    refine ⟨k, rfl, ?_⟩
    cases hn : fl[k]? with
    | none => simp [getItem, hk, hn] at h
    | some m =>
      simp only [getItem, hk, hn] at h ⊢
      have hd : delItem fl (.idx i) = accept fl (fl.eraseIdx k) := by simp [delItem, hk]
      rw [hd] at h ⊢
      rcases accept_spec fl (fl.eraseIdx k) with ⟨h1, h2, _⟩ | ⟨e, h'⟩
      · have he : accept fl (fl.eraseIdx k) = (.ok (), fl.eraseIdx k) := Prod.ext h1 h2
        rw [he] at h ⊢
        simp only [Except.ok.injEq] at h
        subst h
        exact ⟨rfl, List.eraseIdx_eq_take_drop_succ fl k⟩
      · rw [h'] at h; cases h

/-- C12: successful item assignment replaces exactly one element. -/
theorem setItem_list (fl : List N) (i : Int) (n : N) (h : (setItem fl (.idx i) (.one (.node n))).1 = .ok ()) :
    ∃ k, normIdx fl.length i = some k ∧ (setItem fl (.idx i) (.one (.node n))).2 = fl.set k n := by
  unfold setItem at h ⊢
  cases hk : normIdx fl.length i with
  | none => simp [hk] at h
  | some k =>
    simp only [hk] at h ⊢
    exact ⟨k, rfl, accept_ok h⟩

/-- C12, proved part: successful slice assignment from a list, tuple or flow and slice deletion give what
the Python list operation gives (with any step). Missing (and false, see
`setSlice_from_iterator_deletes`): assignment from an iterator. -/
theorem slice_ops_list_partial (fl vs : List N) (a b c : Option Int) :
    ((setItem fl (.slice a b c) (.many (vs.map .node))).1 = .ok () →
      setSlice fl a b c vs = some (setItem fl (.slice a b c) (.many (vs.map .node))).2) ∧
    ((delItem fl (.slice a b c)).1 = .ok () → delSlice fl a b c = some (delItem fl (.slice a b c)).2) ∧
    (∀ l, getItemSlice fl a b c = .ok l → getSlice fl a b c = some l) := by
  refine ⟨setItem_slice_ok, ?_, fun l h => (slice_ok h).2⟩
  intro h
  unfold delItem at h ⊢
  simp only at h ⊢
  cases hs : delSlice fl a b c with
  | none => rw [hs] at h; cases h
  | some l' =>
    rw [hs] at h
    simp only at h ⊢
    rw [accept_ok h]

/-- C12 is false for slice assignment from an iterator or generator: the type check exhausts it, so the
assigned nodes are lost and the slice is silently deleted. -/
theorem setSlice_from_iterator_deletes :
    ∃ (fl : List (Option Nat × Option Nat)) (n : Option Nat × Option Nat),
      setItem fl (.slice (some 1) (some 2) none) (.iterator [.node n]) = (.ok (), [(none, none)]) ∧
      setSlice fl (some 1) (some 2) none [n] = some [(none, none), n] :=
  ⟨[(none, none), (some 5, some 5)], (some 7, some 7), rfl, rfl⟩

/-- C12: a flow sliced as `flow[a:b]` has the nodes from position `a` up to but excluding position `b`. -/
theorem slice_list (fl l : List N) (a b : Option Int) (h : getItemSlice fl a b none = .ok l) :
    l = (fl.take ((b.map (pyPos fl.length)).getD fl.length)).drop ((a.map (pyPos fl.length)).getD 0) := by
  have := (slice_ok h).2
  rw [getSlice_step1] at this
  exact (Option.some.inj this).symm

/-- C12: `flow + other` has the nodes of both in order and leaves the operand alone. -/
theorem add_list (fl : List N) (v : Operand N) (l : List N) (h : add fl v = .ok l) :
    (∃ l', v = .flow l' ∧ l = fl ++ l') ∨ (∃ n, v = .node n ∧ l = fl ++ [n]) := (add_ok h).2

/-- C12: `flow += other`, when it returns, also gives the nodes of both in order. -/
theorem iadd_list (fl : List N) (v : Operand N) (h : (iadd fl v).1 = .ok ()) :
    (∃ l', v = .flow l' ∧ (iadd fl v).2 = fl ++ l') ∨ (∃ n, v = .node n ∧ (iadd fl v).2 = fl ++ [n]) := by
  cases v with
  | flow l => exact .inl ⟨l, rfl, rfl⟩
  | node n => exact .inr ⟨n, rfl, rfl⟩
  | other => cases h

/-- C12: anything that is not a node is refused with TypeError, and the flow does not change. -/
theorem non_node_refused (fl : List N) :
    (append fl .other) = (.error .type, fl) ∧ (∀ i, insert fl i .other = (.error .type, fl)) ∧
    (∀ i, setItem fl (.idx i) (.one .other) = (.error .type, fl)) ∧
    extend fl .other = (.error .type, fl) ∧ add fl .other = .error .type :=
  ⟨rfl, fun _ => rfl, fun _ => rfl, rfl, rfl⟩

theorem accept_of_consistent (fl l : List N) (h : Consistent l) (h0 : ∀ n ∈ l, out n ≠ some 0) :
    accept fl l = (.ok (), l) := by
  have := construct_accepts l h h0
  unfold mk at this
  unfold accept
  cases hc : checkNodes l with
  | error e => simp [hc, bind, Except.bind] at this
  | ok u => rfl

/-- C12: an operation whose resulting node list is consistent (and has no zero output dimension) is not
refused. -/
theorem ops_accepted (fl l : List N) (h : Consistent l) (h0 : ∀ n ∈ l, out n ≠ some 0) :
    (∀ n, l = fl ++ [n] → append fl (.node n) = (.ok (), l) ∧ iadd fl (.node n) = (.ok (), l) ∧
      add fl (.node n) = .ok l) ∧
    (∀ l', l = fl ++ l' → extend fl (.flow l') = (.ok (), l) ∧ iadd fl (.flow l') = (.ok (), l) ∧
      add fl (.flow l') = .ok l) ∧
    (∀ i n, l = fl.take (pyPos fl.length i) ++ [n] ++ fl.drop (pyPos fl.length i) →
      insert fl i (.node n) = (.ok (), l)) ∧
    (∀ i k n, normIdx fl.length i = some k → fl[k]? = some n → l = fl.eraseIdx k → pop fl i = (.ok n, l)) ∧
    (∀ i k n, normIdx fl.length i = some k → l = fl.set k n → setItem fl (.idx i) (.one (.node n)) = (.ok (), l)) ∧
    (∀ a b c vs, setSlice fl a b c vs = some l →
      setItem fl (.slice a b c) (.many (vs.map .node)) = (.ok (), l)) ∧
    (∀ a b c, delSlice fl a b c = some l → delItem fl (.slice a b c) = (.ok (), l)) ∧
    (∀ a b c, getSlice fl a b c = some l → getItemSlice fl a b c = .ok l) := by
  have hacc := accept_of_consistent fl l h h0
  have hmk := construct_accepts l h h0
  have hck : checkNodes l = .ok () := by
    unfold mk at hmk
    cases hc : checkNodes l with
    | error e => simp [hc, bind, Except.bind] at hmk
    | ok u => rfl
  have hset : ∀ a b c vs, setSlice fl a b c vs = some l →
      setItem fl (.slice a b c) (.many (vs.map .node)) = (.ok (), l) := by
    intro a b c vs hs
    unfold setItem
    simp [rhsNodes, allNodes_map, hs, hacc]
  have hp : pyPos fl.length fl.length = fl.length := by unfold pyPos; split <;> omega
  have hend : ∀ vs, setSlice fl (some fl.length) (some fl.length) none vs = some (fl ++ vs) := by
    intro vs; rw [setSlice_step1]; simp [hp]
  refine ⟨?_, ?_, ?_, ?_, ?_, hset, ?_, ?_⟩
  · rintro n rfl
    refine ⟨hset _ _ _ [n] (hend _), by simp [iadd, hck], ?_⟩
    simp [add, hck, hmk, bind, Except.bind]
  · rintro l' rfl
    refine ⟨hset _ _ _ l' (hend _), by simp [iadd, hck], ?_⟩
    simp [add, hck, hmk, bind, Except.bind]
  · rintro i n hl
    refine hset _ _ _ [n] ?_
    rw [setSlice_step1, hl]; simp
  · rintro i k n hk hn rfl
    simp [pop, getItem, hk, hn, delItem, hacc]
  · rintro i k n hk rfl
    simp [setItem, hk, hacc]
  · intro a b c hd
    simp [delItem, hd, hacc]
  · intro a b c hd
    simp [getItemSlice, hd, hck, hmk, bind, Except.bind]

example : (append [(some 2, some 3)] (.node (some 3, some 1)) :
    Except Err Unit × List (Option Nat × Option Nat)) = (.ok (), [(some 2, some 3), (some 3, some 1)]) := rfl

example : (pop [(some 2, some 3), (some 3, none)] (-1) :
    Except Err (Option Nat × Option Nat) × List (Option Nat × Option Nat)) = (.ok (some 3, none), [(some 2, some 3)]) := rfl

example : (delItem [(some 2, some 3), (some 3, none), (none, none), (none, none)] (.slice (some (-1)) none (some (-2))) :
    Except Err Unit × List (Option Nat × Option Nat)) = (.ok (), [(some 2, some 3), (none, none)]) := rfl

end Mdp.Flow
