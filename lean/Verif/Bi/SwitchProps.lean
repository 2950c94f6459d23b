import Verif.Bi.Layer
import Verif.Bi.MsgLemmas
import Verif.Hinet.SwitchboardProps

/-!
# `BiSwitchboard`

C144: the switchboard routes data and the arrays of the message.
-/

namespace Bi.Layer

open Py Mdp.Switchboard

variable {C V : Type}

/-- The array `b` has at position `j` the column `connections[j]` of `a`. -/
def Routed (c : List Int) (a b : Arr C) : Prop :=
  b.rows = a.rows ∧ b.cols.map some = c.map fun i => a.cols[i.toNat]?

/-- The value of an entry after routing: arrays with `dim` columns are routed, everything else is unchanged. -/
def ValRouted (c : List Int) (dim : Nat) (v w : Option (BVal (LVal C V))) : Prop :=
  (∃ a b, v = some (.other (.arr a)) ∧ a.cols.length = dim ∧ w = some (.other (.arr b)) ∧ Routed c a b) ∨
    ((∀ a, v = some (.other (.arr a)) → a.cols.length ≠ dim) ∧ w = v)

theorem routeEntries_spec {f : List C → Except Mdp.Switchboard.Err (List C)} {dim : Nat}
    (R : Arr C → Arr C → Prop) (hf : ∀ a : Arr C, a.cols.length = dim → ∃ b, route f a = .ok b ∧ R a b) :
    ∀ m : LMsg C V, ∃ m', routeEntries f dim m = .ok m' ∧ ∀ key,
      (∃ a b, Dict.get m key = some (.other (.arr a)) ∧ a.cols.length = dim ∧
        Dict.get m' key = some (.other (.arr b)) ∧ R a b) ∨
      ((∀ a, Dict.get m key = some (.other (.arr a)) → a.cols.length ≠ dim) ∧ Dict.get m' key = Dict.get m key) := by
  intro m
  induction m with
  | nil =>
    refine ⟨[], rfl, fun key => .inr ⟨?_, rfl⟩⟩
    intro a h
    cases h
  | cons e m ih =>
    obtain ⟨k, v⟩ := e
    obtain ⟨m', h1, h2⟩ := ih
    have hother : (∀ a, v ≠ .other (.arr a)) →
        ∃ m'', routeEntries f dim ((k, v) :: m) = .ok m'' ∧ ∀ key,
      (∃ a b, Dict.get ((k, v) :: m) key = some (.other (.arr a)) ∧ a.cols.length = dim ∧
        Dict.get m'' key = some (.other (.arr b)) ∧ R a b) ∨
      ((∀ a, Dict.get ((k, v) :: m) key = some (.other (.arr a)) → a.cols.length ≠ dim) ∧
        Dict.get m'' key = Dict.get ((k, v) :: m) key) := by
      intro hv
      refine ⟨(k, v) :: m', ?_, ?_⟩
      · cases v with
        | other w =>
          cases w with
          | arr a => exact absurd rfl (hv a)
          | obj o => simp only [routeEntries, h1]
        | none => simp only [routeEntries, h1]
        | int i => simp only [routeEntries, h1]
        | str s => simp only [routeEntries, h1]
      · intro key
        by_cases hk : k = key
        · subst hk
          right
          refine ⟨?_, by simp [Dict.get]⟩
          intro a ha
          simp [Dict.get] at ha
          exact absurd ha (hv a)
        · have := h2 key
          simpa [Dict.get, hk] using this
    cases v with
    | none => exact hother (by simp)
    | int i => exact hother (by simp)
    | str s => exact hother (by simp)
    | other w =>
      cases w with
      | obj o => exact hother (by simp)
      | arr a =>
        by_cases hd : a.cols.length = dim
        · obtain ⟨b, hb1, hb2⟩ := hf a hd
          refine ⟨(k, .other (.arr b)) :: m', ?_, ?_⟩
          · simp only [routeEntries, hd, if_true, hb1, h1]
          · intro key
            by_cases hk : k = key
            · subst hk
              exact .inl ⟨a, b, by simp [Dict.get], hd, by simp [Dict.get], hb2⟩
            · have := h2 key
              simpa [Dict.get, hk] using this
        · refine ⟨(k, .other (.arr a)) :: m', ?_, ?_⟩
          · simp only [routeEntries, hd, if_false, h1]
          · intro key
            by_cases hk : k = key
            · subst hk
              refine .inr ⟨?_, by simp [Dict.get]⟩
              intro a' ha'
              simp [Dict.get] at ha'
              subst ha'
              exact hd
            · have := h2 key
              simpa [Dict.get, hk] using this

theorem routeBoth_spec {f : List C → Except Mdp.Switchboard.Err (List C)} {dim : Nat}
    (R : Arr C → Arr C → Prop) (hf : ∀ a : Arr C, a.cols.length = dim → ∃ b, route f a = .ok b ∧ R a b)
    {x : Option (Arr C)} (hx : ∀ a, x = some a → a.cols.length = dim) (m : Option (LMsg C V)) :
    ∃ y, (∀ a, x = some a → ∃ b, y = some b ∧ R a b) ∧ (x = none → y = none) ∧
      ((m = none ∨ m = some []) → routeBoth f dim x m = .ok (.single y)) ∧
      ∀ d, m = some d → d ≠ [] → ∃ d', routeBoth f dim x m = .ok (.pair y (some d')) ∧ ∀ key,
        (∃ a b, Dict.get d key = some (.other (.arr a)) ∧ a.cols.length = dim ∧
          Dict.get d' key = some (.other (.arr b)) ∧ R a b) ∨
        ((∀ a, Dict.get d key = some (.other (.arr a)) → a.cols.length ≠ dim) ∧ Dict.get d' key = Dict.get d key) := by
  have hdata : ∃ y, routeData f x = .ok y ∧ (∀ a, x = some a → ∃ b, y = some b ∧ R a b) ∧ (x = none → y = none) := by
    cases x with
    | none => exact ⟨none, rfl, by simp, fun _ => rfl⟩
    | some a =>
      obtain ⟨b, h1, h2⟩ := hf a (hx a rfl)
      refine ⟨some b, by simp only [routeData, h1], ?_, by simp⟩
      rintro a' ⟨⟩
      exact ⟨b, rfl, h2⟩
  obtain ⟨y, hy, h1, h2⟩ := hdata
  refine ⟨y, h1, h2, ?_, ?_⟩
  · rintro (rfl | rfl)
    · simp [routeBoth, hy, routeMsg, truthyMsg]
    · simp [routeBoth, hy, routeMsg, truthyMsg]
  · rintro d rfl hd
    obtain ⟨d', e1, e2⟩ := routeEntries_spec R hf d
    refine ⟨d', ?_, e2⟩
    have hne : d' ≠ [] := by
      rintro rfl
      obtain ⟨e, d0, rfl⟩ := List.exists_cons_of_ne_nil hd
      rcases e2 e.1 with ⟨a, b, _, _, h, _⟩ | ⟨_, h⟩
      · cases h
      · simp [Dict.get] at h
    obtain ⟨e, d0, rfl⟩ := List.exists_cons_of_ne_nil hd
    obtain ⟨e', d0', rfl⟩ := List.exists_cons_of_ne_nil hne
    simp [routeBoth, hy, routeMsg, e1, truthyMsg]

/-- **C144**: `execute` of a switchboard with indices that are not negative: the data and every array of the message with
as many columns as the switchboard has inputs are routed, `out[j] = in[connections[j]]`; every other entry of the message is
unchanged, and there is a message in the result exactly if there are entries. Missing: negative indices (`routing`). -/
theorem switch_execute_partial {n : Nat} {c : List Int} {s : SB} (h : Switchboard.new n c = .ok s)
    (h0 : ∀ i ∈ c, 0 ≤ i) {x : Option (Arr C)} (hx : ∀ a, x = some a → a.cols.length = n) (m : Option (LMsg C V)) :
    ∃ y, (∀ a, x = some a → ∃ b, y = some b ∧ Routed c a b) ∧ (x = none → y = none) ∧
      ((m = none ∨ m = some []) → switchExecute s x m = .ok (.single y)) ∧
      ∀ d, m = some d → d ≠ [] → ∃ d', switchExecute s x m = .ok (.pair y (some d')) ∧
        ∀ key, ValRouted c n (Dict.get d key) (Dict.get d' key) := by
  have hn : s.inputDim = n := by
    unfold Switchboard.new at h
    split at h
    · cases h
    · split at h
      · cases h
      · cases h; rfl
  unfold switchExecute
  rw [hn]
  refine routeBoth_spec (Routed c) ?_ hx m
  intro a ha
  obtain ⟨y, h1, h2⟩ := routing_nonneg h h0 a.cols ha
  exact ⟨⟨[], a.rows, y⟩, by simp only [route, h1], rfl, h2⟩

/-- As `Routed`; an index `i < 0` stands for the column `i + n`. -/
def WrapRouted (c : List Int) (n : Nat) (a b : Arr C) : Prop :=
  b.rows = a.rows ∧ b.cols.map some = c.map fun i : Int => a.cols[(if i < 0 then i + n else i).toNat]?

/-- **C144**, `execute` with any indices: an index `i < 0`, at least `-n`, stands for `i + n`, for the data and for the arrays of
the message alike. -/
theorem switch_execute {n : Nat} {c : List Int} {s : SB} (h : Switchboard.new n c = .ok s)
    (h0 : ∀ i ∈ c, -(n : Int) ≤ i) {x : Option (Arr C)} (hx : ∀ a, x = some a → a.cols.length = n) (m : Option (LMsg C V)) :
    ∃ y, (∀ a, x = some a → ∃ b, y = some b ∧ WrapRouted c n a b) ∧ (x = none → y = none) ∧
      ((m = none ∨ m = some []) → switchExecute s x m = .ok (.single y)) ∧
      ∀ d, m = some d → d ≠ [] → ∃ d', switchExecute s x m = .ok (.pair y (some d')) ∧
        ∀ key, (∃ a b, Dict.get d key = some (.other (.arr a)) ∧ a.cols.length = n ∧
            Dict.get d' key = some (.other (.arr b)) ∧ WrapRouted c n a b) ∨
          ((∀ a, Dict.get d key = some (.other (.arr a)) → a.cols.length ≠ n) ∧ Dict.get d' key = Dict.get d key) := by
  have hn : s.inputDim = n := by
    unfold Switchboard.new at h
    split at h
    · cases h
    · split at h
      · cases h
      · cases h; rfl
  unfold switchExecute
  rw [hn]
  refine routeBoth_spec (WrapRouted c n) ?_ hx m
  intro a ha
  rcases routing h a.cols ha with ⟨⟨i, hi, hl⟩, _⟩ | ⟨_, y, hy, hl, hk⟩
  · have := h0 i hi; omega
  refine ⟨⟨[], a.rows, y⟩, by simp only [route, hy], rfl, ?_⟩
  apply List.ext_getElem?
  intro k
  simp only [List.getElem?_map]
  rcases hc : c[k]? with _ | i
  · have := List.getElem?_eq_none_iff.1 hc
    rw [List.getElem?_eq_none_iff.2 (by omega)]
    rfl
  · obtain ⟨k1, k2, k3⟩ := hk k i hc
    have hyk : y[k]? = a.cols[(if i < 0 then i + n else i).toNat]? := by
      by_cases h : i < 0
      · rw [k2 h, if_pos h]
      · rw [k1 (by omega), if_neg h]
    rcases hy' : y[k]? with _ | b
    · exact absurd hy' k3
    · rw [hy'] at hyk
      simp [← hyk]

/-- **C144**: an index below `-n` is accepted by the constructor; the first data, or the first message with an array of matching
width, raise an IndexError. -/
theorem switch_low_index_refused {n : Nat} {c : List Int} {s : SB} (h : Switchboard.new n c = .ok s)
    (h0 : ∃ i ∈ c, i < -(n : Int)) (a : Arr C) (ha : a.cols.length = n) (m : Option (LMsg C V)) :
    switchExecute s (some a) m = .error .indexError := by
  obtain ⟨i, hi, hl⟩ := h0
  rcases routing h a.cols ha with ⟨_, h1⟩ | ⟨h1, _⟩
  · simp [switchExecute, routeBoth, routeData, route, h1, routeErr]
  · have := h1 i hi; omega

/-- **C144, false** with a negative index: the switchboard with connections `[-1, 0]` says it is invertible, exchanges the two
columns of data and message, and its `inverse` leaves both as they are. -/
theorem switch_inverse_violation : ∃ s, Switchboard.new 2 [-1, 0] = .ok s ∧ s.isInvertible = true ∧
    switchExecute (C := Char) (V := Nat) s (some ⟨[], 1, ['a', 'b']⟩) (some [(['k'], .other (.arr ⟨[], 1, ['c', 'd']⟩))]) =
      .ok (.pair (some ⟨[], 1, ['b', 'a']⟩) (some [(['k'], .other (.arr ⟨[], 1, ['d', 'c']⟩))])) ∧
    switchInverse (C := Char) (V := Nat) s (some ⟨[], 1, ['b', 'a']⟩) (some [(['k'], .other (.arr ⟨[], 1, ['d', 'c']⟩))]) =
      .ok (.pair (some ⟨[], 1, ['b', 'a']⟩) (some [(['k'], .other (.arr ⟨[], 1, ['d', 'c']⟩))])) := by
  obtain ⟨s, h1, h2, h3, h4⟩ := inverse_wrong
  have hc : s.connections = [-1, 0] ∧ s.inputDim = 2 := by
    unfold Switchboard.new at h1
    simp at h1
    subst h1
    exact ⟨rfl, rfl⟩
  have hp : s.inverseConnections = some (argsort [-1, 0]) := by
    unfold Switchboard.new at h1
    simp at h1
    subst h1
    rfl
  have ha : argsort [-1, 0] = [0, 1] := by
    have h := isArgsort_argsort [-1, 0]
    have e := List.Perm.eq_of_pairwise (l₁ := argsort [-1, 0]) (l₂ := [0, 1])
      (le := fun i j => ([-1, 0] : List Int).getD i 0 ≤ ([-1, 0] : List Int).getD j 0) ?_ h.2 (by simp)
      h.1
    · exact e
    · intro a b ha hb
      have ha' := h.1.subset ha
      simp at ha' hb
      rcases hb with rfl | rfl <;> (obtain rfl | rfl : a = 0 ∨ a = 1 := by omega) <;> simp
  obtain ⟨sd, sc, si⟩ := s
  simp only at hc hp
  obtain ⟨rfl, rfl⟩ := hc
  rw [ha] at hp
  subst hp
  exact ⟨_, h1, h2, rfl, rfl⟩

example : ∃ s, Switchboard.new 3 [-1, 0, -3] = .ok s ∧ (∀ i ∈ [-1, 0, (-3 : Int)], -((3 : Nat) : Int) ≤ i) :=
  ⟨_, rfl, by decide⟩

/-- **C144**: for a permutation, `inverse` undoes `execute` for the data and for every array of the message, and leaves the
other entries alone. -/
theorem switch_inverse_partial {n : Nat} {c : List Int} {s : SB} (h : Switchboard.new n c = .ok s)
    (h0 : ∀ i ∈ c, 0 ≤ i) (hi : s.isInvertible = true) {x : Option (Arr C)} (hx : ∀ a, x = some a → a.cols.length = n)
    {d : LMsg C V} (hd : d ≠ []) :
    ∃ y d' x' d'', switchExecute s x (some d) = .ok (.pair y (some d')) ∧
      switchInverse s y (some d') = .ok (.pair x' (some d'')) ∧
      x'.map (fun a => (a.rows, a.cols)) = x.map (fun a => (a.rows, a.cols)) ∧
      ∀ key, Dict.get d'' key = Dict.get d key ∨ ∃ a b, Dict.get d key = some (.other (.arr a)) ∧
        Dict.get d'' key = some (.other (.arr b)) ∧ b.rows = a.rows ∧ b.cols = a.cols := by
  have hn : s.inputDim = n ∧ s.connections.length = n := by
    unfold Switchboard.new at h
    split at h
    · cases h
    · split at h
      · cases h
      · cases h
        refine ⟨rfl, ?_⟩
        simp only [SB.isInvertible] at hi
        split at hi
        · rename_i hh; exact hh.1.symm
        · cases hi
  obtain ⟨i1, i2⟩ := inverse_partial (α := C) h h0 hi
  have hex : ∀ a : Arr C, a.cols.length = n → ∃ b, route s.execute a = .ok b ∧ (b.rows = a.rows ∧ b.cols.length = n ∧
      s.inverse b.cols = .ok a.cols) := by
    intro a ha
    obtain ⟨y, h1, h2⟩ := i1 a.cols ha
    refine ⟨⟨[], a.rows, y⟩, by simp only [route, h1], rfl, ?_, h2⟩
    have hsp := routing_nonneg h h0 a.cols ha
    obtain ⟨y', h3, h4⟩ := hsp
    rw [h1] at h3
    cases h3
    have := congrArg List.length h4
    simp only [List.length_map] at this
    have hcl : c.length = n := by
      rw [← hn.2]
      unfold Switchboard.new at h
      split at h
      · cases h
      · split at h
        · cases h
        · cases h; rfl
    simp only
    omega
  obtain ⟨y, e1, e2, _, e4⟩ := routeBoth_spec (V := V) _ hex hx (some d)
  obtain ⟨d', e5, e6⟩ := e4 d rfl hd
  have hne : d' ≠ [] := by
    rintro rfl
    obtain ⟨e, d0, rfl⟩ := List.exists_cons_of_ne_nil hd
    rcases e6 e.1 with ⟨a, b, _, _, h, _⟩ | ⟨_, h⟩
    · cases h
    · simp [Dict.get] at h
  have hinv : ∀ b : Arr C, b.cols.length = n → ∃ a, route s.inverse b = .ok a ∧ (a.rows = b.rows ∧
      s.inverse b.cols = .ok a.cols) := by
    intro b hb
    obtain ⟨x0, h1, _⟩ := i2 b.cols hb
    exact ⟨⟨[], b.rows, x0⟩, by simp only [route, h1], rfl, h1⟩
  have hy : ∀ b, y = some b → b.cols.length = n := by
    rintro b rfl
    cases x with
    | none => exact absurd (e2 rfl) (by simp)
    | some a =>
      obtain ⟨b', h1, h2⟩ := e1 a rfl
      cases h1
      exact h2.2.1
  obtain ⟨x', g1, g2, _, g4⟩ := routeBoth_spec (V := V) _ hinv hy (some d')
  obtain ⟨d'', g5, g6⟩ := g4 d' rfl hne
  refine ⟨y, d', x', d'', ?_, ?_, ?_, ?_⟩
  · unfold switchExecute; rw [hn.1]; exact e5
  · unfold switchInverse; rw [hn.2]; exact g5
  · cases x with
    | none => rw [g2 (e2 rfl)]
    | some a =>
      obtain ⟨b, rfl, h1, h2, h3⟩ := e1 a rfl
      obtain ⟨a', rfl, h4, h5⟩ := g1 b rfl
      rw [h3] at h5
      simp only [Except.ok.injEq] at h5
      simp only [Option.map_some, h4, h1, h5]
  · intro key
    rcases e6 key with ⟨a, b, h1, h2, h3, h4, h5, h6⟩ | ⟨h1, h2⟩
    · rcases g6 key with ⟨b', a', k1, k2, k3, k4, k5⟩ | ⟨k1, _⟩
      · rw [h3] at k1
        cases k1
        rw [h6] at k5
        simp only [Except.ok.injEq] at k5
        exact .inr ⟨a, a', h1, k3, k4.trans h4, k5.symm⟩
      · exact absurd h5 (k1 b h3)
    · rcases g6 key with ⟨b', a', k1, k2, _⟩ | ⟨_, k2⟩
      · rw [h2] at k1
        exact absurd k2 (h1 b' k1)
      · exact .inl (k2.trans h2)

/-- **C144**: a switchboard that is not invertible refuses data in `inverse`. -/
theorem switch_not_invertible {s : SB} (hi : s.isInvertible = false) (a : Arr C) (m : Option (LMsg C V)) :
    switchInverse s (some a) m = .error .layer := by
  have : s.inverse a.cols = .error .switchboard := by
    unfold SB.inverse
    unfold SB.isInvertible at hi
    cases hc : s.inverseConnections with
    | none => rfl
    | some p => rw [hc] at hi; cases hi
  simp [switchInverse, routeBoth, routeData, route, this, routeErr]

/-- Data and an array of the message are routed, an array with another width is not. -/
example : (match Switchboard.new 3 [2, 0, 1] with
    | .ok s => (match switchExecute (C := Char) (V := Nat) s (some ⟨[], 1, ['e', 'f', 'g']⟩)
        (some [(['k'], .other (.arr ⟨[], 1, ['h', 'i', 'j']⟩)), (['l'], .other (.arr ⟨[], 1, ['h', 'i']⟩))]) with
      | .ok (.pair (some y) (some m)) => (y.cols, m.map fun e => (match e.2 with
          | .other (.arr a) => a.cols
          | _ => []))
      | _ => ([], []))
    | .error _ => ([], [])) = (['g', 'e', 'f'], [['j', 'h', 'i'], ['h', 'i']]) := by decide

end Bi.Layer
