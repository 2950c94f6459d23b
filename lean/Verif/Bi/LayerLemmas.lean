import Verif.Bi.LayerSpec
import Mathlib.Tactic.Ring

/-!
# Lemmas about `CloneBiLayer`
-/

namespace Bi.Layer

open Py

variable {σ C V : Type}

/-! ### Blocks -/

theorem flatten_blocks {α : Type} (l : List α) (w : Nat) : ∀ n,
    ((List.range n).map fun i => (l.drop (i * w)).take w).flatten = l.take (n * w) := by
  intro n
  induction n with
  | zero => simp
  | succ n ih =>
    rw [List.range_succ, List.map_append, List.flatten_append, ih]
    simp only [List.map_cons, List.map_nil, List.flatten_cons, List.flatten_nil, List.append_nil]
    rw [Nat.succ_mul, List.take_add]

theorem isBlock_of {a b : Arr C} {n i : Nat} (hn : 0 < n) (hi : i < n) (hd : n ∣ a.cols.length) (hr : b.rows = a.rows)
    (hb : b.cols = (a.cols.drop (i * (a.cols.length / n))).take (a.cols.length / n)) : IsBlock n i a b := by
  obtain ⟨q, hq⟩ := hd
  have hw : a.cols.length / n = q := by rw [hq, Nat.mul_div_cancel_left _ hn]
  rw [hw] at hb
  have hl : b.cols.length = q := by
    rw [hb, List.length_take, List.length_drop, hq]
    have : i * q + q ≤ n * q := by
      rw [← Nat.succ_mul]
      exact Nat.mul_le_mul_right _ hi
    omega
  refine ⟨hr, by rw [hl, hq], ?_⟩
  intro j hj
  rw [hl] at hj ⊢
  rw [hb, List.getElem?_take, if_pos hj, List.getElem?_drop]

/-! ### Flags -/

theorem ids_nil {nodeId : Option Str} (hg : GoodId nodeId) {m : LMsg C V} (h : NoFlag nodeId m)
    {ids : List (Str × Str)} (hi : getMsgIdKeys nodeId m = .ok ids) : ids = [] := by
  cases ids with
  | nil => rfl
  | cons p r =>
    exfalso
    have := (idKeysLoop_mem hg hi p.1 p.2).1 (by simp)
    rcases this with h1 | ⟨h1, h2⟩
    · cases h1
    · have h3 := (Dict.keys_get m p.2).1 h1
      rw [h.2 p.2 ⟨p.1, h2⟩] at h3
      cases h3

theorem extractFlag_noFlag {nodeId : Option Str} (hg : GoodId nodeId) {m : LMsg C V} (h : NoFlag nodeId m) (l : LSt σ) :
    (∃ e, ∀ l : LSt σ, extractFlag nodeId m l = (.error e, l)) ∨ ∀ l : LSt σ, extractFlag nodeId m l = (.ok m, l) := by
  cases hi : getMsgIdKeys nodeId m with
  | error e =>
    left
    refine ⟨e, fun l => ?_⟩
    unfold extractFlag
    simp only [M.bind_def, M.lift_def, hi]
  | ok ids =>
    right
    intro l
    have := ids_nil hg h hi
    subst this
    unfold extractFlag
    simp only [M.bind_def, M.lift_def, hi]
    have e : extractKey kCopies m [] = (BVal.none, m, []) := by
      unfold extractKey
      simp only [popIdKey]
      rw [h.1]
      rfl
    rw [e]
    rfl

theorem flagOf_noFlag {nodeId : Option Str} (hg : GoodId nodeId) {m : Option (LMsg C V)}
    (h : ∀ d, m = some d → NoFlag nodeId d) :
    (∃ e, ∀ l : LSt σ, flagOf nodeId m l = (.error e, l)) ∨ ∀ l : LSt σ, flagOf nodeId m l = (.ok m, l) := by
  cases m with
  | none => right; intro l; rfl
  | some d =>
    rcases extractFlag_noFlag (σ := σ) hg (h d rfl) ⟨.copies [], false⟩ with ⟨e, he⟩ | he
    · left
      refine ⟨e, fun l => ?_⟩
      unfold flagOf
      simp only [M.bind_def, he]
    · right
      intro l
      unfold flagOf
      simp only [M.bind_def, he]
      rfl

theorem setUseCopies_size (b : Bool) (l : LSt σ) : (setUseCopies b l).2.nodes.size = l.nodes.size := by
  unfold setUseCopies
  cases hn : l.nodes with
  | shared s n => cases b <;> simp [Nodes.size, hn]
  | copies ss =>
    cases b
    · simp only
      split <;> simp [Nodes.size, hn]
    · simp [Nodes.size, hn]

theorem extractFlag_size (nodeId : Option Str) (m : LMsg C V) (l : LSt σ) :
    (extractFlag nodeId m l).2.nodes.size = l.nodes.size := by
  unfold extractFlag
  simp only [M.bind_def, M.lift_def]
  cases getMsgIdKeys nodeId m with
  | error e => rfl
  | ok ids =>
    simp only
    split
    · simp only [M.bind_def]
      have := setUseCopies_size (extractKey kCopies m ids).1.truthy l
      generalize setUseCopies (extractKey kCopies m ids).1.truthy l = q at this ⊢
      obtain ⟨q, l'⟩ := q
      cases q <;> exact this
    · rfl

theorem flagOf_size (nodeId : Option Str) (m : Option (LMsg C V)) (l : LSt σ) :
    (flagOf nodeId m l).2.nodes.size = l.nodes.size := by
  cases m with
  | none => rfl
  | some d =>
    unfold flagOf
    simp only [M.bind_def]
    have := extractFlag_size nodeId d l
    generalize extractFlag nodeId d l = q at this ⊢
    obtain ⟨q, l'⟩ := q
    cases q <;> exact this

/-! ### Calls of the nodes -/

/-- The inputs as the nodes get them. -/
def given (ins : List (Option (Arr C) × Option (LMsg C V))) : List (Option (Arr C) × Option (LMsg C V)) :=
  ins.map fun p => (p.1, orNone p.2)

theorem runShared_called {f : NodeFn σ C V} : ∀ {ins : List (Option (Arr C) × Option (LMsg C V))} {s s' : σ}
    {rs : List (LRes C V)}, runShared f s ins = (.ok rs, s') → rs.length = ins.length ∧ ∃ t : Nat → σ, t 0 = s ∧
      t ins.length = s' ∧ ∀ (i : Nat) x m r, (given ins)[i]? = some (x, m) → rs[i]? = some r →
        f (t i) x m = (.ok r, t (i + 1)) := by
  intro ins
  induction ins with
  | nil =>
    intro s s' rs h
    cases h
    exact ⟨rfl, fun _ => s, rfl, rfl, by simp [given]⟩
  | cons p r ih =>
    obtain ⟨x, m⟩ := p
    intro s s' rs h
    unfold runShared at h
    generalize hq : f s x (orNone m) = q at h
    obtain ⟨q, s1⟩ := q
    cases q with
    | error e => cases h
    | ok y =>
      simp only at h
      generalize hq2 : runShared f s1 r = q2 at h
      obtain ⟨q2, s2⟩ := q2
      cases q2 with
      | error e => cases h
      | ok ys =>
        cases h
        obtain ⟨hl, t, t0, t1, ht⟩ := ih hq2
        refine ⟨by simp [hl], fun i => if i = 0 then s else t (i - 1), rfl, by simp [t1], ?_⟩
        intro i x' m' r' hi hr
        cases i with
        | zero =>
          simp only [given, List.map_cons, List.getElem?_cons_zero, Option.some.injEq, Prod.mk.injEq] at hi hr
          obtain ⟨rfl, rfl⟩ := hi
          subst hr
          simp [hq, t0]
        | succ i =>
          simp only [given, List.map_cons, List.getElem?_cons_succ] at hi hr
          simpa using ht i x' m' r' hi hr

theorem runCopies_called {f : NodeFn σ C V} : ∀ {ins : List (Option (Arr C) × Option (LMsg C V))} {ss ss' : List σ}
    {rs : List (LRes C V)}, ins.length = ss.length → runCopies f ss ins = (.ok rs, ss') →
      ss'.length = ss.length ∧ rs.length = ins.length ∧
      ∀ (i : Nat) s s' x m r, ss[i]? = some s → ss'[i]? = some s' → (given ins)[i]? = some (x, m) → rs[i]? = some r →
        f s x m = (.ok r, s') := by
  intro ins
  induction ins with
  | nil =>
    intro ss ss' rs hl h
    cases ss with
    | nil => cases h; exact ⟨rfl, rfl, by simp⟩
    | cons s ss => cases hl
  | cons p r ih =>
    obtain ⟨x, m⟩ := p
    intro ss ss' rs hl h
    cases ss with
    | nil => cases hl
    | cons s ss =>
      unfold runCopies at h
      generalize hq : f s x (orNone m) = q at h
      obtain ⟨q, s1⟩ := q
      cases q with
      | error e => cases h
      | ok y =>
        simp only at h
        generalize hq2 : runCopies f ss r = q2 at h
        obtain ⟨q2, s2⟩ := q2
        cases q2 with
        | error e => cases h
        | ok ys =>
          cases h
          obtain ⟨h1, h2, h3⟩ := ih (by simpa using hl) hq2
          refine ⟨by simp [h1], by simp [h2], ?_⟩
          intro i s' s'' x' m' r' a1 a2 a3 a4
          cases i with
          | zero =>
            simp only [given, List.map_cons, List.getElem?_cons_zero, Option.some.injEq, Prod.mk.injEq] at a1 a2 a3 a4
            obtain ⟨rfl, rfl⟩ := a3
            subst a1 a2 a4
            exact hq
          | succ i =>
            simp only [given, List.map_cons, List.getElem?_cons_succ] at a1 a2 a3 a4
            exact h3 i s' s'' x' m' r' a1 a2 a3 a4

theorem runNodes_called {f : NodeFn σ C V} {ins : List (Option (Arr C) × Option (LMsg C V))} {l l' : LSt σ}
    {rs : List (LRes C V)} (hl : ins.length = l.nodes.size) (h : runNodes f ins l = (.ok rs, l')) :
    Called f (given ins) rs l.nodes l'.nodes ∧ l'.training = l.training := by
  unfold runNodes at h
  cases hn : l.nodes with
  | shared s n =>
    rw [hn] at h
    simp only [Prod.mk.injEq] at h
    obtain ⟨h1, rfl⟩ := h
    have hq : runShared f s ins = (.ok rs, (runShared f s ins).2) := by rw [← h1]
    obtain ⟨a, t, t0, t1, ht⟩ := runShared_called hq
    exact ⟨⟨rfl, by simpa [given] using a, t, t0, by simpa [given] using t1, ht⟩, rfl⟩
  | copies ss =>
    rw [hn] at h
    simp only [Prod.mk.injEq] at h
    obtain ⟨h1, rfl⟩ := h
    have hq : runCopies f ss ins = (.ok rs, (runCopies f ss ins).2) := by rw [← h1]
    rw [hn] at hl
    obtain ⟨a, b, c⟩ := runCopies_called hl hq
    exact ⟨⟨a, by simpa [given] using b, c⟩, rfl⟩

/-! ### Joining -/

theorem hstack_ok {l : List (Arr C)} {a : Arr C} (h : hstack l = .ok a) :
    l ≠ [] ∧ (∀ b ∈ l, b.rows = a.rows) ∧ a.cols = (l.map Arr.cols).flatten := by
  unfold hstack at h
  cases l with
  | nil => cases h
  | cons b r =>
    simp only at h
    split at h
    · rename_i hr
      cases h
      refine ⟨by simp, ?_, rfl⟩
      intro c hc
      rcases List.mem_cons.1 hc with rfl | hc
      · rfl
      · simpa using List.all_eq_true.1 hr c hc
    · cases h

theorem hstack_succeeds {l : List (Arr C)} {n : Nat} (h0 : l ≠ []) (h : ∀ b ∈ l, b.rows = n) :
    ∃ a, hstack l = .ok a ∧ a.rows = n ∧ a.cols = (l.map Arr.cols).flatten := by
  unfold hstack
  cases l with
  | nil => exact absurd rfl h0
  | cons b r =>
    simp only
    have hb := h b (by simp)
    rw [if_pos]
    · exact ⟨_, rfl, hb, rfl⟩
    · rw [List.all_eq_true]
      intro c hc
      have := h c (by simp [hc])
      simp [this, hb]

theorem allArrs_ok : ∀ {ys : List (Option (Arr C))} {l : List (Arr C)}, allArrs ys = .ok l → ys = l.map some := by
  intro ys
  induction ys with
  | nil => intro l h; cases h; rfl
  | cons y ys ih =>
    intro l h
    cases y with
    | none => cases h
    | some a =>
      unfold allArrs at h
      cases hq : allArrs ys with
      | error e => rw [hq] at h; cases h
      | ok l' =>
        rw [hq] at h
        cases h
        rw [ih hq]
        rfl

/-- What joining the data gives: nothing if the last node gives nothing, otherwise all columns in order. -/
theorem joinData_ok {ys : List (Option (Arr C))} {y : Option (Arr C)} (h : joinData ys = .ok y) :
    (y = none ∧ (ys = [] ∨ ys.getLast? = some none)) ∨ ∃ (l : List (Arr C)) (a : Arr C), ys = l.map some ∧ y = some a ∧
      (∀ b ∈ l, b.rows = a.rows) ∧ a.cols = (l.map Arr.cols).flatten := by
  unfold joinData at h
  split at h
  · rename_i hy
    cases h
    exact .inl ⟨rfl, .inl (List.getLast?_eq_none_iff.1 hy)⟩
  · rename_i hy
    cases h
    exact .inl ⟨rfl, .inr hy⟩
  · rename_i a hy
    cases hq : allArrs ys with
    | error e => rw [hq] at h; cases h
    | ok l =>
      rw [hq] at h
      simp only at h
      cases hs : hstack l with
      | error e => rw [hs] at h; cases h
      | ok b =>
        rw [hs] at h
        cases h
        obtain ⟨_, h2, h3⟩ := hstack_ok hs
        exact .inr ⟨l, b, allArrs_ok hq, rfl, h2, h3⟩

/-! ### Parts of messages -/

theorem get_nodeMsg (n i : Nat) (m : LMsg C V) (key : Str) :
    Dict.get (nodeMsg n i m) key = (Dict.get m key).map (splitValue n i) := by
  unfold nodeMsg
  induction m with
  | nil => rfl
  | cons e r ih =>
    simp only [List.map_cons, Dict.get]
    split
    · rfl
    · exact ih

theorem valPart_split {n i : Nat} (hn : 0 < n) (hi : i < n) (v : Option (BVal (LVal C V))) :
    ValPart n i v (v.map (splitValue n i)) := by
  cases v with
  | none => exact .inr ⟨by simp, rfl⟩
  | some v =>
    cases v with
    | none => exact .inr ⟨by simp, rfl⟩
    | int k => exact .inr ⟨by simp, rfl⟩
    | str s => exact .inr ⟨by simp, rfl⟩
    | other w =>
      cases w with
      | obj o => exact .inr ⟨by simp, rfl⟩
      | arr a =>
        by_cases hd : a.cols.length % n = 0
        · refine .inl ⟨a, piece n i a, rfl, Nat.dvd_of_mod_eq_zero hd, by simp [splitValue, hd], ?_⟩
          exact isBlock_of hn hi (Nat.dvd_of_mod_eq_zero hd) rfl rfl
        · refine .inr ⟨?_, by simp [splitValue, hd]⟩
          intro b hb
          cases hb
          exact fun h => hd (Nat.mod_eq_zero_of_dvd h)

theorem msgPart_split {n i : Nat} (hn : 0 < n) (hi : i < n) (m : Option (LMsg C V)) :
    ∃ w, (splitMsgs n m)[i]? = some w ∧ MsgPart n i m (orNone w) := by
  cases m with
  | none => exact ⟨none, by simp [splitMsgs, hi], rfl⟩
  | some m =>
    cases m with
    | nil => exact ⟨none, by simp [splitMsgs, hi], .inl ⟨rfl, rfl⟩⟩
    | cons e r =>
      refine ⟨some (nodeMsg n i (e :: r)), by simp [splitMsgs, hi], .inr ⟨by simp, nodeMsg n i (e :: r), rfl, ?_⟩⟩
      intro key
      rw [get_nodeMsg]
      exact valPart_split hn hi _

theorem dataPart_block {n i : Nat} (hn : 0 < n) (hi : i < n) {x : Option (Arr C)}
    (hx : ∀ a, x = some a → n ∣ a.cols.length ∧ a.cols ≠ []) : DataPart n i x (block n i x) := by
  cases x with
  | none => trivial
  | some a =>
    obtain ⟨h1, h2⟩ := hx a rfl
    have : a.cols.length / n ≠ 0 := by
      intro h0
      rcases Nat.div_eq_zero_iff.1 h0 with h | h
      · omega
      · exact h2 (List.length_eq_zero_iff.1 (Nat.eq_zero_of_dvd_of_lt h1 h))
    unfold block
    simp only [if_neg this]
    exact isBlock_of hn hi h1 rfl (by rw [Nat.mul_comm])

theorem splitMsgs_length (n : Nat) (m : Option (LMsg C V)) : (splitMsgs n m).length = n := by
  unfold splitMsgs
  split
  · simp
  · split <;> simp

theorem size_copies {ss : List σ} : (Nodes.copies ss).size = ss.length := rfl

end Bi.Layer
