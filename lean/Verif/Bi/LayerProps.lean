import Verif.Bi.LayerLemmas

/-!
# Properties of `CloneBiLayer`

C140 (data and parts of the message of the nodes), C141 (outgoing messages), C142 (shared node and copies), C143 (the
`use_copies` key of messages).
-/

namespace Bi.Layer

open Py

variable {σ C V : Type}

/-- The inputs of the nodes in a run. -/
theorem run_inputs {n : Nat} (hn : 0 < n) {x : Option (Arr C)} (m : Option (LMsg C V))
    (hx : ∀ a, x = some a → n ∣ a.cols.length ∧ a.cols ≠ []) :
    let ins := given (((List.range n).map (block n · x)).zip (splitMsgs n m))
    ins.length = n ∧ ∀ (i : Nat) xi mi, ins[i]? = some (xi, mi) → DataPart n i x xi ∧ MsgPart n i m mi := by
  intro ins
  have hl : ins.length = n := by simp [ins, given, splitMsgs_length]
  refine ⟨hl, ?_⟩
  intro i xi mi hi
  have hin : i < n := by rw [← hl]; exact (List.getElem?_eq_some_iff.1 hi).1
  obtain ⟨w, hw, hp⟩ := msgPart_split hn hin m
  have hi' : (given (((List.range n).map (block n · x)).zip (splitMsgs n m)))[i]? = some (xi, mi) := hi
  simp only [given, List.getElem?_map, List.getElem?_zip_eq_some, Option.map_eq_some_iff, Prod.exists, Prod.mk.injEq] at hi'
  obtain ⟨a, b, ⟨⟨k, hk, hb⟩, h2⟩, rfl, rfl⟩ := hi'
  rw [List.getElem?_range hin] at hk
  cases hk
  rw [hw] at h2
  cases h2
  subst hb
  exact ⟨dataPart_block hn hin hx, hp⟩

/-- A run is: flag of the incoming message, calls of the nodes, collection of the results. -/
theorem run_split {nodeId : Option Str} (hg : GoodId nodeId) {f : NodeFn σ C V} {x : Option (Arr C)}
    {m : Option (LMsg C V)} {l l' : LSt σ} {r : LRes C V} (hm : ∀ d, m = some d → NoFlag nodeId d)
    (h : run nodeId f x m l = (.ok r, l')) :
    ∃ rs l1, runNodes f (((List.range l.nodes.size).map (block l.nodes.size · x)).zip (splitMsgs l.nodes.size m)) l =
      (.ok rs, l1) ∧ collect nodeId rs l1 = (.ok r, l') := by
  unfold run at h
  obtain ⟨m', l0, h1, h2⟩ := M.bind_eq_ok h
  rcases flagOf_noFlag (σ := σ) hg hm with ⟨e, he⟩ | he
  · rw [he l] at h1; cases h1
  · rw [he l] at h1
    cases h1
    obtain ⟨l1, l2, h3, h4⟩ := M.bind_eq_ok h2
    cases h3
    obtain ⟨rs, l3, h5, h6⟩ := M.bind_eq_ok h4
    exact ⟨rs, l3, h5, h6⟩

theorem combineLoop_get {msgs : List (Option (LMsg C V))} {first : Option (LMsg C V)} : ∀ {last m : LMsg C V},
    combineLoop msgs first last = .ok m → ∀ key, (Dict.get last key = none → Dict.get m key = none) ∧
      ∀ v, Dict.get last key = some v → ∃ w, combineEntry msgs first key v = .ok w ∧ Dict.get m key = some w := by
  intro last
  induction last with
  | nil => intro m h key; cases h; simp [Dict.get]
  | cons p r ih =>
    obtain ⟨k, v⟩ := p
    intro m h key
    unfold combineLoop at h
    cases h1 : combineEntry msgs first k v with
    | error e => rw [h1] at h; cases h
    | ok w =>
      rw [h1] at h
      simp only at h
      cases h2 : combineLoop msgs first r with
      | error e => rw [h2] at h; cases h
      | ok m' =>
        rw [h2] at h
        cases h
        simp only [Dict.get]
        split
        · rename_i hk
          subst hk
          refine ⟨by simp, ?_⟩
          intro v' hv
          cases hv
          exact ⟨w, h1, rfl⟩
        · exact ih h2 key

theorem combineMsgs_get {first : Option (LMsg C V)} {rest : List (Option (LMsg C V))} {m : LMsg C V}
    (h : combineMsgs (first :: rest) = .ok (some m)) :
    ∃ last, (first :: rest).getLast (by simp) = some last ∧
      ((rest = [] ∧ m = last) ∨ (rest ≠ [] ∧ combineLoop (first :: rest) first last = .ok m)) := by
  unfold combineMsgs at h
  simp only at h
  split at h
  · cases h
  · rename_i last hl
    refine ⟨last, hl, ?_⟩
    split at h
    · rename_i hr
      subst hr
      cases h
      simp only [List.getLast_singleton, Option.some.injEq] at hl
      exact .inl ⟨rfl, hl⟩
    · rename_i hr
      right
      refine ⟨hr, ?_⟩
      cases hc : combineLoop (first :: rest) first last with
      | error e => rw [hc] at h; cases h
      | ok m' => rw [hc] at h; cases h; rfl

theorem combineMsgs_noFlag {nodeId : Option Str} {ms : List (Option (LMsg C V))} {m : LMsg C V}
    (h : combineMsgs ms = .ok (some m)) (hq : ∀ d, some d ∈ ms → NoFlag nodeId d) : NoFlag nodeId m := by
  cases ms with
  | nil => cases h
  | cons first rest =>
    obtain ⟨last, hl, hc⟩ := combineMsgs_get h
    have hm : some last ∈ first :: rest := by rw [← hl]; exact List.getLast_mem _
    have hq' := hq last hm
    rcases hc with ⟨_, rfl⟩ | ⟨_, hc⟩
    · exact hq'
    · exact ⟨(combineLoop_get hc _).1 hq'.1, fun k hk => (combineLoop_get hc _).1 (hq'.2 k hk)⟩

theorem mem_msgsOf {rs : List (LRes C V)} {d : LMsg C V} (h : some d ∈ msgsOf rs) : ∃ r ∈ rs, msgOf r = some d := by
  induction rs with
  | nil => cases h
  | cons r rs ih =>
    cases r with
    | single y =>
      obtain ⟨r, hr, hd⟩ := ih h
      exact ⟨r, by simp [hr], hd⟩
    | pair y m =>
      rcases List.mem_cons.1 h with e | e
      · exact ⟨_, List.mem_cons_self, e.symm⟩
      · obtain ⟨r, hr, hd⟩ := ih e
        exact ⟨r, by simp [hr], hd⟩
    | triple y m t =>
      rcases List.mem_cons.1 h with e | e
      · exact ⟨_, List.mem_cons_self, e.symm⟩
      · obtain ⟨r, hr, hd⟩ := ih e
        exact ⟨r, by simp [hr], hd⟩

theorem called_quiet {nodeId : Option Str} {f : NodeFn σ C V} (hf : Quiet nodeId f)
    {ins : List (Option (Arr C) × Option (LMsg C V))} {rs : List (LRes C V)} {N N' : Nodes σ}
    (hl : ins.length = N.size) (h : Called f ins rs N N') : ∀ d, some d ∈ msgsOf rs → NoFlag nodeId d := by
  intro d hd
  obtain ⟨r, hr, hd⟩ := mem_msgsOf hd
  obtain ⟨i, hi, rfl⟩ := List.getElem_of_mem hr
  cases N with
  | shared s n =>
    cases N' with
    | copies ss => exact h.elim
    | shared s' n' =>
      obtain ⟨_, h1, t, _, _, ht⟩ := h
      have hin : i < ins.length := by omega
      exact hf _ _ _ _ _ _ (ht i ins[i].1 ins[i].2 rs[i] (List.getElem?_eq_getElem hin) (List.getElem?_eq_getElem hi)) hd
  | copies ss =>
    cases N' with
    | shared s n => exact h.elim
    | copies ss' =>
      obtain ⟨h0, h1, ht⟩ := h
      have hin : i < ins.length := by omega
      have his : i < ss.length := by rw [size_copies] at hl; omega
      exact hf _ _ _ _ _ _ (ht i ss[i] (ss'[i]'(by omega)) ins[i].1 ins[i].2 rs[i] (List.getElem?_eq_getElem his)
        (List.getElem?_eq_getElem (by omega)) (List.getElem?_eq_getElem hin) (List.getElem?_eq_getElem hi)) hd

/-- What collecting the results does. -/
theorem collect_ok {nodeId : Option Str} {rs : List (LRes C V)} {l l' : LSt σ} {r : LRes C V}
    (h : collect nodeId rs l = (.ok r, l')) :
    ∃ m y m', combineMsgs (msgsOf rs) = .ok m ∧ joinData (rs.map dataOf) = .ok y ∧ flagOf nodeId m l = (.ok m', l') ∧
      r = resultOf y m' (targetOf rs .none) := by
  unfold collect at h
  obtain ⟨m, l1, h1, h2⟩ := M.bind_eq_ok h
  cases h1' : combineMsgs (msgsOf rs) with
  | error e => rw [h1'] at h1; cases h1
  | ok m0 =>
    rw [h1'] at h1
    cases h1
    obtain ⟨y, l2, h3, h4⟩ := M.bind_eq_ok h2
    cases h3' : joinData (rs.map dataOf) with
    | error e => rw [h3'] at h3; cases h3
    | ok y0 =>
      rw [h3'] at h3
      cases h3
      obtain ⟨m', l3, h5, h6⟩ := M.bind_eq_ok h4
      cases h6
      exact ⟨_, _, _, rfl, rfl, h5, rfl⟩

theorem dataOf_resultOf (y : Option (Arr C)) (m : Option (LMsg C V)) (t : BVal (LVal C V)) :
    dataOf (resultOf y m t) = y := by
  unfold resultOf
  split
  · rfl
  · split <;> rfl

theorem targetOf_last {rs : List (LRes C V)} {i : Nat} {y : Option (Arr C)} {m : Option (LMsg C V)}
    {t : BVal (LVal C V)} : ∀ t0, rs[i]? = some (.triple y m t) →
      (∀ j, i < j → ∀ y' m' t', rs[j]? ≠ some (.triple y' m' t')) → targetOf rs t0 = t := by
  induction rs generalizing i with
  | nil => intro t0 h; cases h
  | cons r rs ih =>
    intro t0 h hj
    cases i with
    | zero =>
      simp only [List.getElem?_cons_zero, Option.some.injEq] at h
      subst h
      unfold targetOf
      have : ∀ (rs : List (LRes C V)), (∀ (j : Nat) y' m' t', rs[j]? ≠ some (.triple y' m' t')) → targetOf rs t = t := by
        intro rs
        induction rs with
        | nil => intro _; rfl
        | cons r rs ih2 =>
          intro hh
          cases r with
          | triple a b c => exact absurd rfl (hh 0 a b c)
          | single y => exact ih2 fun j => hh (j + 1)
          | pair y m => exact ih2 fun j => hh (j + 1)
      exact this rs fun j => hj (j + 1) (by omega)
    | succ i =>
      simp only [List.getElem?_cons_succ] at h
      have := fun t0 => ih (i := i) t0 h fun j hlt => hj (j + 1) (by omega)
      cases r <;> exact this _

/-- **C140**: `execute` and `train` of the layer call every node once, in order, with its block of columns and its part of
the message, and the result has the columns of all results side by side (no data if the last node gives none). The target
is that of the last node that gives one. Missing: data whose number of columns is not a positive multiple of the number of
nodes, see `trailing_columns_false`. -/
theorem layer_run_partial {nodeId : Option Str} (hg : GoodId nodeId) {f : NodeFn σ C V} {x : Option (Arr C)}
    {m : Option (LMsg C V)} {l l' : LSt σ} {r : LRes C V} (hn : 0 < l.nodes.size)
    (hm : ∀ d, m = some d → NoFlag nodeId d)
    (hx : ∀ a, x = some a → l.nodes.size ∣ a.cols.length ∧ a.cols ≠ []) (h : run nodeId f x m l = (.ok r, l')) :
    ∃ ins rs nodes', ins.length = l.nodes.size ∧
      (∀ (i : Nat) xi mi, ins[i]? = some (xi, mi) →
        DataPart l.nodes.size i x xi ∧ MsgPart l.nodes.size i m mi) ∧
      Called f ins rs l.nodes nodes' ∧ (Quiet nodeId f → l'.nodes = nodes') ∧
      ((dataOf r = none ∧ (rs.map dataOf).getLast? = some none) ∨
        ∃ (as : List (Arr C)) (a : Arr C), rs.map dataOf = as.map some ∧ dataOf r = some a ∧
          (∀ b ∈ as, b.rows = a.rows) ∧ a.cols = (as.map Arr.cols).flatten) ∧
      ∀ (i : Nat) y mi t, rs[i]? = some (.triple y mi t) → t.isSome = true →
        (∀ j, i < j → ∀ y' m' t', rs[j]? ≠ some (.triple y' m' t')) → ∃ y' m', r = .triple y' m' t := by
  obtain ⟨rs, l1, h1, h2⟩ := run_split hg hm h
  obtain ⟨a1, a2⟩ := run_inputs (V := V) hn m hx
  have hl : (((List.range l.nodes.size).map (block l.nodes.size · x)).zip (splitMsgs l.nodes.size m)).length =
      l.nodes.size := by simp [splitMsgs_length]
  obtain ⟨c1, c2⟩ := runNodes_called hl h1
  obtain ⟨m1, y, m2, b1, b2, b3, rfl⟩ := collect_ok h2
  refine ⟨_, rs, l1.nodes, a1, a2, c1, ?_, ?_, ?_⟩
  · intro hq
    have hf : ∀ d, m1 = some d → NoFlag nodeId d := by
      rintro d rfl
      exact combineMsgs_noFlag b1 (called_quiet hq a1 c1)
    rcases flagOf_noFlag (σ := σ) hg hf with ⟨e, he⟩ | he
    · rw [he l1] at b3; cases b3
    · rw [he l1] at b3; cases b3; rfl
  · rw [dataOf_resultOf]
    rcases joinData_ok b2 with ⟨rfl, e | e⟩ | ⟨as, a, e1, e2, e3, e4⟩
    · exfalso
      have hrs : rs.length = l.nodes.size := by
        have : rs.length = (given (((List.range l.nodes.size).map (block l.nodes.size · x)).zip
            (splitMsgs l.nodes.size m))).length := by
          generalize l.nodes = N at c1
          generalize l1.nodes = N' at c1
          cases N <;> cases N' <;> first | exact c1.elim | exact c1.2.1
        rw [this, a1]
      have : rs = [] := List.map_eq_nil_iff.1 e
      rw [this] at hrs
      simp at hrs
      omega
    · exact .inl ⟨rfl, e⟩
    · exact .inr ⟨as, a, e1, e2, e3, e4⟩
  · intro i y' mi t hi ht hj
    rw [targetOf_last .none hi hj]
    unfold resultOf
    rw [if_pos ht]
    exact ⟨_, _, rfl⟩

/-- **C140** fails for other numbers of columns: what is beyond the last full block is dropped without an error. -/
theorem trailing_columns_false (nodeId : Option Str) (f : NodeFn σ C V) (a : Arr C) (m : Option (LMsg C V)) (l : LSt σ)
    (hw : a.cols.length / l.nodes.size ≠ 0) :
    run nodeId f (some a) m l =
      run nodeId f (some { a with cols := a.cols.take (l.nodes.size * (a.cols.length / l.nodes.size)) }) m l := by
  have hn : 0 < l.nodes.size := by
    rcases Nat.eq_zero_or_pos l.nodes.size with h | h
    · rw [h, Nat.div_zero] at hw; exact absurd rfl hw
    · exact h
  unfold run
  simp only [M.bind_def]
  have hs := flagOf_size nodeId m l
  generalize flagOf nodeId m l = q at hs ⊢
  obtain ⟨q, l1⟩ := q
  cases q with
  | error e => rfl
  | ok m1 =>
    simp only [M.get_def] at hs ⊢
    rw [hs]
    have key : ∀ i, i < l.nodes.size → block l.nodes.size i (some a) =
        block l.nodes.size i (some { a with cols := a.cols.take (l.nodes.size * (a.cols.length / l.nodes.size)) }) := by
      intro i hi
      have hle : l.nodes.size * (a.cols.length / l.nodes.size) ≤ a.cols.length := Nat.mul_div_le _ _
      have e : (a.cols.take (l.nodes.size * (a.cols.length / l.nodes.size))).length / l.nodes.size =
          a.cols.length / l.nodes.size := by
        rw [List.length_take, Nat.min_eq_left hle, Nat.mul_div_cancel_left _ hn]
      unfold block
      simp only [e, if_neg hw]
      congr 2
      rw [List.drop_take, List.take_take, Nat.min_eq_left]
      have : a.cols.length / l.nodes.size * (i + 1) ≤ l.nodes.size * (a.cols.length / l.nodes.size) := by
        rw [Nat.mul_comm]
        exact Nat.mul_le_mul_right _ hi
      rw [Nat.mul_succ] at this
      omega
    have hmap : (List.range l.nodes.size).map (block l.nodes.size · (some a)) = (List.range l.nodes.size).map
        (block l.nodes.size · (some { a with cols := a.cols.take (l.nodes.size * (a.cols.length / l.nodes.size)) })) :=
      List.map_congr_left fun i hi => key i (List.mem_range.1 hi)
    rw [hmap]

/-- A node that hands on data and message. -/
def passNode : NodeFn Nat Char Nat := fun s x m => (.ok (match m with
  | none => .single x
  | some m => .pair x (some m)), s + 1)

/-- A layer of two copies on four columns, with an array that is cut and one that is not. -/
example : (fun q : Except Err (LRes Char Nat) × LSt Nat => (match q.1 with
      | .ok (.pair (some y) (some m)) => (y.cols, m.map fun e => (e.1, match e.2 with
          | .other (.arr a) => a.cols
          | _ => []))
      | _ => ([], []), match q.2.nodes with
      | .copies ss => ss
      | _ => []))
    (run none passNode (some ⟨[0], 1, ['a', 'b', 'c', 'd']⟩)
      (some [(['k'], .other (.arr ⟨[1], 3, ['e', 'f']⟩)), (['l'], .other (.arr ⟨[2], 3, ['g', 'h', 'i']⟩))])
      ⟨.copies [10, 20], false⟩) =
    ((['a', 'b', 'c', 'd'], [(['k'], ['e', 'f']), (['l'], ['g', 'h', 'i'])]), [11, 21]) := by decide

/-- Five columns and two nodes: the last column is dropped. -/
example : (fun q : Except Err (LRes Char Nat) × LSt Nat => match q.1 with
      | .ok (.single (some y)) => y.cols
      | _ => [])
    (run none passNode (some ⟨[0], 1, ['a', 'b', 'c', 'd', 'e']⟩) none ⟨.shared 0 2, false⟩) =
    ['a', 'b', 'c', 'd'] := by decide

end Bi.Layer
