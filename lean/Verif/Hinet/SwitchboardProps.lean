import Verif.Hinet.SwitchboardLemmas

/-!
# Properties of the switchboards (C24, C25, C26, C28, C66)

Vocabulary of the statements: `IsPerm n c` (the connections are a rearrangement of `0 … n-1`),
`IsArgsort c p` (a possible result of `numpy.argsort(c)`), `meanAt c row j` (the sum of the entries of `row`
at the positions where `c` is `j`, divided by the number of these positions).
-/

namespace Mdp.Switchboard

open Py

variable {α : Type}

theorem new_cases (n : Nat) (c : List Int) :
    (Switchboard.new n c = .error .switchboard ∧ (c = [] ∨ ∃ i ∈ c, ¬ i < n)) ∨
    (Switchboard.new n c = .ok ⟨n, c, if n = c.length ∧ c.dedup.length = n then some (argsort c) else none⟩ ∧
      c ≠ [] ∧ ∀ i ∈ c, i < n) := by
  unfold Switchboard.new
  split
  · rename_i h
    exact .inl ⟨rfl, .inl (List.length_eq_zero_iff.1 h)⟩
  split
  · rename_i h
    simp only [List.any_eq_true, decide_eq_true_eq] at h
    obtain ⟨i, hi, hge⟩ := h
    exact .inl ⟨rfl, .inr ⟨i, hi, by omega⟩⟩
  · rename_i h0 h
    simp only [List.any_eq_true, decide_eq_true_eq, not_exists, not_and] at h
    exact .inr ⟨rfl, by rintro rfl; simp at h0, fun i hi => by have := h i hi; omega⟩

/-- **C24**, construction. It fails exactly when the list is empty or some index is too large. -/
theorem construction (n : Nat) (c : List Int) :
    ((∃ s, Switchboard.new n c = .ok s) ↔ c ≠ [] ∧ ∀ i ∈ c, i < n) ∧
    ((∃ e, Switchboard.new n c = .error e) ↔ c = [] ∨ ∃ i ∈ c, ¬ i < n) := by
  rcases new_cases n c with ⟨h, h'⟩ | ⟨h, h1, h2⟩
  · refine ⟨⟨?_, ?_⟩, ⟨fun _ => h', fun _ => ⟨_, h⟩⟩⟩
    · rintro ⟨s, hs⟩; rw [h] at hs; cases hs
    · rintro ⟨a, b⟩
      rcases h' with rfl | ⟨i, hi, hn⟩
      · exact absurd rfl a
      · exact absurd (b i hi) hn
  · refine ⟨⟨fun _ => ⟨h1, h2⟩, fun _ => ⟨_, h⟩⟩, ⟨?_, ?_⟩⟩
    · rintro ⟨e, he⟩; rw [h] at he; cases he
    · rintro (rfl | ⟨i, hi, hn⟩)
      · exact absurd rfl h1
      · exact absurd (h2 i hi) hn

/-- **C24**, construction, as the property words it, when the indices are not negative. Missing: negative
indices, see `negative_index_accepted`. -/
theorem construction_partial (n : Nat) (c : List Int) (h0 : ∀ i ∈ c, 0 ≤ i) :
    (∃ e, Switchboard.new n c = .error e) ↔ c = [] ∨ ∃ i ∈ c, ¬ (0 ≤ i ∧ i < n) := by
  rw [(construction n c).2]
  constructor
  · rintro (h | ⟨i, hi, hn⟩)
    · exact .inl h
    · exact .inr ⟨i, hi, fun h => hn h.2⟩
  · rintro (h | ⟨i, hi, hn⟩)
    · exact .inl h
    · exact .inr ⟨i, hi, fun h => hn ⟨h0 i hi, h⟩⟩

example : ∃ s, Switchboard.new 3 [2, 0, 0, 1] = .ok s := ((construction 3 _).1).2 (by simp)
example : ∃ e, Switchboard.new 3 [2, 3] = .error e := ((construction 3 _).2).2 (.inr ⟨3, by simp, by simp⟩)

/-- The counterexample to **C24** as stated: an index that is not a valid input index is accepted, and the
switchboard then fails on every row. -/
theorem negative_index_accepted :
    ∃ s, Switchboard.new 2 [-5] = .ok s ∧
      ∀ row : List α, row.length = 2 → s.execute row = .error .index := by
  refine ⟨⟨2, [-5], none⟩, rfl, ?_⟩
  intro row h
  exact fancy_fails (by rw [h]; simp)

theorem new_fields {n : Nat} {c : List Int} {s : SB} (h : Switchboard.new n c = .ok s) :
    s = ⟨n, c, if n = c.length ∧ c.dedup.length = n then some (argsort c) else none⟩ ∧
      c ≠ [] ∧ ∀ i ∈ c, i < n := by
  rcases new_cases n c with ⟨h', _⟩ | ⟨h', h1, h2⟩
  · rw [h'] at h; cases h
  · rw [h'] at h; cases h; exact ⟨rfl, h1, h2⟩

/-- **C24**, routing. Every row is mapped to the row of its entries at the connection indices; an index
`i < 0` stands for `i + n`. The only failure is an index below `-n`. -/
theorem routing {n : Nat} {c : List Int} {s : SB} (h : Switchboard.new n c = .ok s) (row : List α)
    (hrow : row.length = n) :
    ((∃ i ∈ c, i < -(n : Int)) ∧ s.execute row = .error .index) ∨
    ((∀ i ∈ c, -(n : Int) ≤ i) ∧ ∃ y, s.execute row = .ok y ∧ y.length = c.length ∧
      ∀ (k : Nat) (i : Int), c[k]? = some i →
        (0 ≤ i → y[k]? = row[i.toNat]?) ∧ (i < 0 → y[k]? = row[(i + n).toNat]?) ∧ y[k]? ≠ none) := by
  obtain ⟨rfl, h1, h2⟩ := new_fields h
  by_cases hc : ∀ i ∈ c, -(n : Int) ≤ i
  · refine .inr ⟨hc, ?_⟩
    obtain ⟨y, hy⟩ := fancy_succeeds (row := row) (c := c) (by rw [hrow]; exact fun i hi => ⟨hc i hi, h2 i hi⟩)
    obtain ⟨e1, e2, e3⟩ := fancy_ok hy
    refine ⟨y, hy, e1, ?_⟩
    intro k i hk
    have := e3 k i hk
    rw [hrow] at this
    refine ⟨?_, ?_, ?_⟩
    · intro h0; rw [this, if_neg (by omega)]
    · intro h0; rw [this, if_pos h0]
    · intro hn
      have := List.getElem?_eq_none_iff.1 hn
      have := (List.getElem?_eq_some_iff.1 hk).1
      omega
  · push Not at hc
    obtain ⟨i, hi, hlt⟩ := hc
    exact .inl ⟨⟨i, hi, hlt⟩, fancy_fails (by rw [hrow]; intro hh; have := (hh i hi).1; omega)⟩

/-- **C24**, routing, for indices that are not negative: `[x[c] for c in connections]`. -/
theorem routing_nonneg {n : Nat} {c : List Int} {s : SB} (h : Switchboard.new n c = .ok s)
    (h0 : ∀ i ∈ c, 0 ≤ i) (row : List α) (hrow : row.length = n) :
    ∃ y, s.execute row = .ok y ∧ y.map some = c.map fun i => row[i.toNat]? := by
  rcases routing h row hrow with ⟨⟨i, hi, hl⟩, _⟩ | ⟨_, y, hy, hl, hk⟩
  · have := h0 i hi; omega
  refine ⟨y, hy, ?_⟩
  apply List.ext_getElem?
  intro k
  simp only [List.getElem?_map]
  rcases hc : c[k]? with _ | i
  · have := List.getElem?_eq_none_iff.1 hc
    rw [List.getElem?_eq_none_iff.2 (by omega)]
    rfl
  · have hyk := (hk k i hc).1 (h0 i (List.mem_of_getElem? hc))
    rcases hy' : y[k]? with _ | b
    · exact absurd hy' ((hk k i hc).2.2)
    · rw [hy'] at hyk
      simp [← hyk]

example : ∃ s, Switchboard.new 3 [2, 0, 0, 1] = .ok s ∧ s.execute ["a", "b", "c"] = .ok ["c", "a", "a", "b"] :=
  ⟨_, rfl, rfl⟩

/-! ### C25 -/

/-- **C25**, when a switchboard is invertible, for indices that are not negative: exactly when the
connections are a permutation of the inputs. -/
theorem invertible_iff_permutation {n : Nat} {c : List Int} {s : SB} (h : Switchboard.new n c = .ok s)
    (h0 : ∀ i ∈ c, 0 ≤ i) : s.isInvertible = true ↔ IsPerm n c := by
  obtain ⟨rfl, h1, h2⟩ := new_fields h
  unfold SB.isInvertible
  simp only
  constructor
  · intro hi
    split at hi
    · rename_i hc; exact isPerm_of h0 h2 hc.1 hc.2
    · cases hi
  · intro hp
    obtain ⟨_, e1, e2⟩ := of_isPerm hp
    rw [if_pos ⟨e1, by rw [List.dedup_eq_self.2 e2, e1]⟩]
    rfl

/-- **C25**, `is_invertible()` holds whenever the connections are a permutation. -/
theorem permutation_invertible {n : Nat} {c : List Int} (hn : 0 < n) (hp : IsPerm n c) :
    ∃ s, Switchboard.new n c = .ok s ∧ s.isInvertible = true := by
  obtain ⟨e0, e1, e2⟩ := of_isPerm hp
  obtain ⟨s, hs⟩ := (construction n c).1.2 ⟨by rintro rfl; simp at e1; omega, fun i hi => (e0 i hi).2⟩
  exact ⟨s, hs, (invertible_iff_permutation hs fun i hi => (e0 i hi).1).2 hp⟩

theorem inverse_lemma {n : Nat} {c : List Int} {s : SB} (h : Switchboard.new n c = .ok s)
    (h0 : ∀ i ∈ c, 0 ≤ i) (hi : s.isInvertible = true) (row : List α) (hrow : row.length = n) :
    (∃ y, s.execute row = .ok y ∧ y.length = n ∧ s.inverse y = .ok row) ∧
    (∃ x, s.inverse row = .ok x ∧ x.length = n ∧ s.execute x = .ok row) := by
  have hp := (invertible_iff_permutation h h0).1 hi
  obtain ⟨hs, h1, h2⟩ := new_fields h
  obtain ⟨e0, e1, e2⟩ := of_isPerm hp
  rw [if_pos ⟨e1, by rw [List.dedup_eq_self.2 e2, e1]⟩] at hs
  subst hs
  obtain ⟨pl, pk⟩ := argsort_perm hp (isArgsort_argsort c)
  have pm : ∀ i ∈ (argsort c).map (fun k => ((k : Nat) : Int)), 0 ≤ i ∧ i < n := by
    intro i hi
    simp only [List.mem_map] at hi
    obtain ⟨k, hk, rfl⟩ := hi
    have := (isArgsort_argsort c).1.subset hk
    simp at this
    omega
  -- p (c i) = i
  have pc : ∀ (i j : Nat), c[i]? = some (j : Int) → (argsort c)[j]? = some i := by
    intro i j hij
    have hj : j < (argsort c).length := by
      have := (e0 _ (List.mem_of_getElem? hij)).2
      omega
    have hpj := pk j _ (List.getElem?_eq_getElem hj)
    rw [List.getElem?_eq_getElem hj]
    have hi := (List.getElem?_eq_some_iff.1 hij)
    have hi' := (List.getElem?_eq_some_iff.1 hpj)
    obtain ⟨a1, a2⟩ := hi
    obtain ⟨b1, b2⟩ := hi'
    congr 1
    exact (e2.getElem_inj_iff (hi := b1) (hj := a1)).1 (b2.trans a2.symm)
  unfold SB.execute SB.inverse
  simp only
  constructor
  · obtain ⟨y, hy⟩ := fancy_succeeds (row := row) (c := c) (by
      intro i hi; have := e0 i hi; rw [hrow]; omega)
    obtain ⟨y1, y2, y3⟩ := fancy_ok hy
    refine ⟨y, hy, by omega, ?_⟩
    obtain ⟨z, hz⟩ := fancy_succeeds (row := y) (c := (argsort c).map fun k => ((k : Nat) : Int)) (by
      intro i hi; have := pm i hi; omega)
    obtain ⟨z1, z2, z3⟩ := fancy_ok hz
    rw [hz]
    congr 1
    apply List.ext_getElem?
    intro k
    by_cases hk : k < n
    · have hk' : k < (argsort c).length := by omega
      have q := pk k _ (List.getElem?_eq_getElem hk')
      have r := z3 k ((argsort c)[k] : Int) (by simp [List.getElem?_eq_getElem hk'])
      rw [r, if_neg (by omega)]
      have := y3 _ _ q
      rw [if_neg (by omega)] at this
      simpa using this
    · rw [List.getElem?_eq_none_iff.2 (by simp at z1; omega), List.getElem?_eq_none_iff.2 (by omega)]
  · obtain ⟨x, hx⟩ := fancy_succeeds (row := row) (c := (argsort c).map fun k => ((k : Nat) : Int)) (by
      intro i hi; have := pm i hi; omega)
    obtain ⟨x1, x2, x3⟩ := fancy_ok hx
    have xl : x.length = n := by simp at x1; omega
    refine ⟨x, hx, xl, ?_⟩
    obtain ⟨z, hz⟩ := fancy_succeeds (row := x) (c := c) (by
      intro i hi; have := e0 i hi; omega)
    obtain ⟨z1, z2, z3⟩ := fancy_ok hz
    rw [hz]
    congr 1
    apply List.ext_getElem?
    intro k
    by_cases hk : k < n
    · have hk' : k < c.length := by omega
      have b := e0 _ (List.getElem_mem hk')
      have r := z3 k _ (List.getElem?_eq_getElem hk')
      rw [r, if_neg (by omega)]
      have q := pc k (c[k]).toNat (by rw [List.getElem?_eq_getElem hk']; congr 1; omega)
      have := x3 (c[k]).toNat (k : Int) (by simp [q])
      rw [this, if_neg (by omega)]
      simp
    · rw [List.getElem?_eq_none_iff.2 (by omega), List.getElem?_eq_none_iff.2 (by omega)]

/-- **C25**, for indices that are not negative: an invertible switchboard and its inverse undo each other.
Missing: negative indices, see `inverse_wrong`. -/
theorem inverse_partial {n : Nat} {c : List Int} {s : SB} (h : Switchboard.new n c = .ok s)
    (h0 : ∀ i ∈ c, 0 ≤ i) (hi : s.isInvertible = true) :
    (∀ x : List α, x.length = n → ∃ y, s.execute x = .ok y ∧ s.inverse y = .ok x) ∧
    (∀ y : List α, y.length = n → ∃ x, s.inverse y = .ok x ∧ s.execute x = .ok y) := by
  constructor
  · intro x hx
    obtain ⟨y, a, _, b⟩ := (inverse_lemma h h0 hi x hx).1
    exact ⟨y, a, b⟩
  · intro y hy
    obtain ⟨x, a, _, b⟩ := (inverse_lemma h h0 hi y hy).2
    exact ⟨x, a, b⟩

theorem isPerm_201 : IsPerm 3 [2, 0, 1] := by unfold IsPerm; decide

example : ∃ s, Switchboard.new 3 [2, 0, 1] = .ok s ∧ s.isInvertible = true ∧ ∀ i ∈ ([2, 0, 1] : List Int), 0 ≤ i := by
  obtain ⟨s, a, b⟩ := permutation_invertible (by simp) isPerm_201
  exact ⟨s, a, b, by simp⟩

/-- **C25**: a switchboard that is not invertible refuses to invert. -/
theorem not_invertible {n : Nat} {c : List Int} {s : SB} (_ : Switchboard.new n c = .ok s)
    (hi : s.isInvertible = false) (y : List α) : s.inverse y = .error .switchboard := by
  unfold SB.isInvertible at hi
  unfold SB.inverse
  rcases hx : s.inverseConnections with _ | p
  · rfl
  · rw [hx] at hi; cases hi

/-- The counterexample to **C25** with a negative index: `Switchboard(2, [-1, 0])` says it is invertible,
swaps the two columns, and inverts by leaving them as they are. -/
theorem inverse_wrong : ∃ s, Switchboard.new 2 [-1, 0] = .ok s ∧ s.isInvertible = true ∧
    s.execute ["a", "b"] = .ok ["b", "a"] ∧ s.inverse ["b", "a"] = .ok ["b", "a"] := by
  refine ⟨⟨2, [-1, 0], some [0, 1]⟩, ?_, rfl, rfl, rfl⟩
  unfold Switchboard.new
  have : argsort [-1, 0] = [0, 1] := by
    have h := isArgsort_argsort [-1, 0]
    have e := List.Perm.eq_of_pairwise (l₁ := argsort [-1, 0]) (l₂ := [0, 1])
      (le := fun i j => ([-1, 0] : List Int).getD i 0 ≤ ([-1, 0] : List Int).getD j 0) ?_ h.2 (by simp)
      h.1
    · exact e
    · intro a b ha hb
      have ha' := h.1.subset ha
      simp at ha' hb
      rcases hb with rfl | rfl <;> (obtain rfl | rfl : a = 0 ∨ a = 1 := by omega) <;> simp
  simp [this]

/-! ### C26 -/

theorem meanInverse_lemma [Field α] {n : Nat} {c : List Int} {s : SB} (h : Switchboard.new n c = .ok s)
    (h0 : ∀ i ∈ c, 0 ≤ i) {p : List Nat} (hp : IsArgsort c p) (y : List α) :
    ∃ x, s.meanInverse p y = .ok x ∧ x.length = n ∧
      ∀ j, j < n → x[j]? = some (if (j : Int) ∈ c then meanAt c y j else 0) := by
  obtain ⟨rfl, h1, h2⟩ := new_fields h
  unfold SB.meanInverse bincount
  have hneg : (c.any fun i => decide (i < 0)) = false := by
    rw [List.any_eq_false]
    intro i hi
    have := h0 i hi
    simp; omega
  simp only [hneg, Bool.false_eq_true, if_false]
  have hn : 0 < n := by
    obtain ⟨i, r, rfl⟩ := List.exists_cons_of_ne_nil h1
    have := h2 i (by simp); have := h0 i (by simp); omega
  have hmax : (c.map Int.toNat).foldr max 0 < n := by
    apply foldr_max_lt hn
    intro a ha
    simp only [List.mem_map] at ha
    obtain ⟨i, hi, rfl⟩ := ha
    have := h2 i hi; have := h0 i hi; omega
  have hN : ∀ i ∈ c, i < ((c.map Int.toNat).foldr max 0 + 1 : Nat) := by
    intro i hi
    have := le_foldr_max (l := c.map Int.toNat) (List.mem_map_of_mem (f := Int.toNat) hi)
    have := h0 i hi
    omega
  obtain ⟨x, e1, e2, -, e4, e5⟩ := meanLoop_spec (row := y) hp h0 _ hN
    ((List.range ((c.map Int.toNat).foldr max 0 + 1)).map fun (j : Nat) => c.count (j : Int)) 0 0
    (List.replicate n 0) (by rw [List.range_eq_range']; rfl)
    (by cases c with
        | nil => exact absurd rfl h1
        | cons a r => simp)
    (by simp) (by simp; omega)
  refine ⟨x, e1, by simpa using e2, ?_⟩
  intro j hj
  by_cases hm : (j : Int) ∈ c
  · rw [e4 j (by omega) hm, if_pos hm]
  · rw [e5 j (by omega) hm, if_neg hm]
    simp [hj]

/-- **C26**. The inverse sets every input to the mean of the outputs connected to it, and to zero when
there is none. For every order `p` in which numpy may sort the connections. -/
theorem mean_inverse [Field α] {n : Nat} {c : List Int} {s : SB} (h : Switchboard.new n c = .ok s)
    (h0 : ∀ i ∈ c, 0 ≤ i) {p : List Nat} (hp : IsArgsort c p) (y : List α) :
    ∃ x, s.meanInverse p y = .ok x ∧ x.length = n ∧
      ∀ j, j < n → ((j : Int) ∈ c → x[j]? = some (meanAt c y j)) ∧ ((j : Int) ∉ c → x[j]? = some 0) := by
  obtain ⟨x, e1, e2, e3⟩ := meanInverse_lemma h h0 hp y
  refine ⟨x, e1, e2, fun j hj => ⟨fun hm => ?_, fun hm => ?_⟩⟩
  · rw [e3 j hj, if_pos hm]
  · rw [e3 j hj, if_neg hm]

theorem sum_const [Field α] (l : List Nat) (f : Nat → α) (a : α) (h : ∀ i ∈ l, f i = a) :
    (l.map f).sum = (l.length : α) * a := by
  induction l with
  | nil => simp
  | cons b r ih =>
    rw [List.map_cons, List.sum_cons, h b List.mem_cons_self,
      ih fun i hi => h i (List.mem_cons_of_mem _ hi)]
    simp only [List.length_cons, Nat.cast_add, Nat.cast_one]
    ring

/-- **C26**. Inverting an executed row gives the row back on every connected input and zero on the others. -/
theorem mean_inverse_execute [Field α] [CharZero α] {n : Nat} {c : List Int} {s : SB}
    (h : Switchboard.new n c = .ok s) (h0 : ∀ i ∈ c, 0 ≤ i) {p : List Nat} (hp : IsArgsort c p)
    (row : List α) (hrow : row.length = n) :
    ∃ y x, s.execute row = .ok y ∧ s.meanInverse p y = .ok x ∧ x.length = n ∧
      ∀ j, j < n → ((j : Int) ∈ c → x[j]? = row[j]?) ∧ ((j : Int) ∉ c → x[j]? = some 0) := by
  rcases routing h row hrow with ⟨⟨i, hi, hl⟩, _⟩ | ⟨_, y, hy, hyl, hk⟩
  · have := h0 i hi; omega
  obtain ⟨x, e1, e2, e3⟩ := meanInverse_lemma h h0 hp y
  refine ⟨y, x, hy, e1, e2, fun j hj => ⟨fun hm => ?_, fun hm => ?_⟩⟩
  · rw [e3 j hj, if_pos hm]
    have hjr : j < row.length := by omega
    rw [List.getElem?_eq_getElem hjr]
    congr 1
    unfold meanAt
    have hcnt := count_eq_filter c (List.range c.length) (List.Perm.refl _) (j : Int)
    rw [sum_const _ _ row[j], hcnt]
    · have : (c.count (j : Int) : α) ≠ 0 := by
        rw [Nat.cast_ne_zero]
        have := List.count_pos_iff.2 hm
        omega
      field_simp
    · intro i hi
      simp only [List.mem_filter, List.mem_range, decide_eq_true_eq] at hi
      have hci : c[i]? = some (j : Int) := by
        rw [List.getElem?_eq_getElem hi.1]
        have := hi.2
        simp only [List.getD, List.getElem?_eq_getElem hi.1, Option.getD_some] at this
        rw [this]
      have := (hk i _ hci).1 (by omega)
      simp only [Int.toNat_natCast] at this
      simp only [List.getD, this, List.getElem?_eq_getElem hjr, Option.getD_some]
  · rw [e3 j hj, if_neg hm]

example : ∃ s, Switchboard.new 4 [2, 0, 2] = .ok s ∧ (∀ i ∈ ([2, 0, 2] : List Int), 0 ≤ i) ∧
    IsArgsort [2, 0, 2] [1, 2, 0] ∧ IsArgsort [2, 0, 2] [1, 0, 2] :=
  ⟨_, rfl, by simp, ⟨by decide, by decide⟩, ⟨by decide, by decide⟩⟩

/-- A negative connection makes the inverse raise. -/
theorem mean_inverse_negative [Field α] {n : Nat} {c : List Int} {s : SB} (h : Switchboard.new n c = .ok s)
    (h0 : ∃ i ∈ c, i < 0) (p : List Nat) (y : List α) : s.meanInverse p y = .error .value := by
  obtain ⟨rfl, h1, h2⟩ := new_fields h
  unfold SB.meanInverse bincount
  have hneg : (c.any fun i => decide (i < 0)) = true := by
    rw [List.any_eq_true]
    obtain ⟨i, hi, hl⟩ := h0
    exact ⟨i, hi, by simpa using hl⟩
  simp only [hneg, if_true]

/-! ### C28 -/

/-- **C28**: pixel to index. In-range pixels are mapped to in-range indices, and back without loss;
all others are rejected. The four conversions are consistent. -/
theorem pixel_to_index (t : Trans) (x y : Int) :
    (0 ≤ x ∧ x < t.xDim ∧ 0 ≤ y ∧ y < t.yDim →
      ∃ i, t.imageToIndex x y = .ok i ∧ t.arrayToIndex y x = .ok i ∧ 0 ≤ i ∧ i < t.xDim * t.yDim ∧
        t.indexToImage i = .ok (x, y) ∧ t.indexToArray i = .ok (y, x)) ∧
    (¬ (0 ≤ x ∧ x < t.xDim ∧ 0 ≤ y ∧ y < t.yDim) →
      t.imageToIndex x y = .error .range ∧ t.arrayToIndex y x = .error .range) := by
  constructor
  · rintro ⟨h1, h2, h3, h4⟩
    have hx : 0 < t.xDim := by omega
    have hb : 0 ≤ y * t.xDim + x := by
      have := Int.mul_nonneg h3 hx.le; omega
    have hb2 : y * t.xDim + x < t.xDim * t.yDim := by
      have : (y + 1) * t.xDim ≤ t.yDim * t.xDim := Int.mul_le_mul_of_nonneg_right (by omega) hx.le
      rw [Int.mul_comm t.xDim]
      have e : (y + 1) * t.xDim = y * t.xDim + t.xDim := by ring
      omega
    have hm : Int.fmod (y * t.xDim + x) t.xDim = x := by
      rw [Int.fmod_eq_emod_of_nonneg _ hx.le, Int.add_comm, Int.add_mul_emod_self_right,
        Int.emod_eq_of_lt h1 h2]
    have hd : Int.fdiv (y * t.xDim + x) t.xDim = y := by
      rw [Int.fdiv_eq_ediv_of_nonneg _ hx.le, Int.add_comm, Int.add_mul_ediv_right _ _ (by omega),
        Int.ediv_eq_zero_of_lt h1 h2, Int.zero_add]
    refine ⟨y * t.xDim + x, ?_, ?_, hb, hb2, ?_, ?_⟩
    · unfold Trans.imageToIndex
      rw [if_neg (by simp; omega), if_neg (by simp; omega)]
    · unfold Trans.arrayToIndex
      rw [if_neg (by simp; omega), if_neg (by simp; omega)]
    · unfold Trans.indexToImage
      rw [if_neg (by rw [not_not]; exact ⟨hb, by omega⟩), hm, hd]
    · unfold Trans.indexToArray
      rw [if_neg (by rw [not_not]; exact ⟨hb, by omega⟩), hm, hd]
  · intro h
    constructor
    · unfold Trans.imageToIndex
      split
      · rfl
      split
      · rfl
      · rename_i a b; exfalso; apply h; rw [not_not] at a b; exact ⟨a.1, a.2, b.1, b.2⟩
    · unfold Trans.arrayToIndex
      split
      · rfl
      split
      · rfl
      · rename_i a b; exfalso; apply h; rw [not_not] at a b; exact ⟨b.1, b.2, a.1, a.2⟩

/-- **C28**: index to pixel, for translators with sizes that are not negative. -/
theorem index_to_pixel (t : Trans) (hx : 0 ≤ t.xDim) (i : Int) :
    (0 ≤ i ∧ i < t.xDim * t.yDim →
      ∃ x y, t.indexToImage i = .ok (x, y) ∧ t.indexToArray i = .ok (y, x) ∧
        0 ≤ x ∧ x < t.xDim ∧ 0 ≤ y ∧ y < t.yDim ∧
        t.imageToIndex x y = .ok i ∧ t.arrayToIndex y x = .ok i) ∧
    (¬ (0 ≤ i ∧ i < t.xDim * t.yDim) →
      t.indexToImage i = .error .range ∧ t.indexToArray i = .error .range) := by
  constructor
  · rintro ⟨h1, h2⟩
    have hx' : 0 < t.xDim := by
      rcases hx.lt_or_eq with h | h
      · exact h
      · rw [← h] at h2; simp at h2; omega
    have m0 := Int.emod_nonneg i (b := t.xDim) (by omega)
    have m1 := Int.emod_lt_of_pos i hx'
    have d0 : 0 ≤ i / t.xDim := Int.ediv_nonneg h1 hx
    have d1 : i / t.xDim < t.yDim := by
      apply Int.ediv_lt_of_lt_mul hx'
      rw [Int.mul_comm]; exact h2
    have e := Int.mul_ediv_add_emod i t.xDim
    refine ⟨Int.fmod i t.xDim, Int.fdiv i t.xDim, ?_, ?_, ?_⟩
    · unfold Trans.indexToImage; rw [if_neg (by rw [not_not]; exact ⟨h1, by omega⟩)]
    · unfold Trans.indexToArray; rw [if_neg (by rw [not_not]; exact ⟨h1, by omega⟩)]
    rw [Int.fmod_eq_emod_of_nonneg _ hx, Int.fdiv_eq_ediv_of_nonneg _ hx]
    refine ⟨m0, m1, d0, d1, ?_, ?_⟩
    · unfold Trans.imageToIndex
      rw [if_neg (by rw [not_not]; exact ⟨m0, m1⟩), if_neg (by rw [not_not]; exact ⟨d0, d1⟩)]
      congr 1; rw [Int.mul_comm]; exact e
    · unfold Trans.arrayToIndex
      rw [if_neg (by rw [not_not]; exact ⟨d0, d1⟩), if_neg (by rw [not_not]; exact ⟨m0, m1⟩)]
      congr 1; rw [Int.mul_comm]; exact e
  · intro h
    constructor
    · unfold Trans.indexToImage
      rw [if_pos (by intro hh; apply h; exact ⟨hh.1, by omega⟩)]
    · unfold Trans.indexToArray
      rw [if_pos (by intro hh; apply h; exact ⟨hh.1, by omega⟩)]

/-- **C28**: image and array coordinates are exchanged without loss. -/
theorem image_array (a b : Int) :
    (let r := imageToArray a b; arrayToImage r.1 r.2 = (a, b)) ∧
    (let r := arrayToImage a b; imageToArray r.1 r.2 = (a, b)) := ⟨rfl, rfl⟩

example : (⟨4, 3⟩ : Trans).imageToIndex 1 2 = .ok 9 ∧ (⟨4, 3⟩ : Trans).indexToImage 9 = .ok (1, 2) :=
  ⟨rfl, rfl⟩

/-! ### C66: channels -/

theorem channel_fields {n : Nat} {c : List Int} {od idim : Nat} {s : CSB}
    (h : Channel.new n c od idim = .ok s) :
    s.inputDim = n ∧ s.connections = c ∧ s.outChannelDim = od ∧ s.inChannelDim = idim ∧
    Switchboard.new n c = .ok s.toSB ∧ 0 < od ∧ c.length = s.outputChannels * od ∧
    0 < idim ∧ n = s.inputChannels * idim := by
  unfold Channel.new at h
  split at h
  · cases h
  rename_i sb hsb
  split at h
  · cases h
  split at h
  · cases h
  split at h
  · cases h
  split at h
  · cases h
  rename_i h1 h2 h3 h4
  cases h
  have := (new_fields hsb).1
  subst this
  refine ⟨rfl, rfl, rfl, rfl, hsb, by omega, ?_, by omega, ?_⟩
  · rw [not_not] at h2
    exact (Nat.div_mul_cancel (Nat.dvd_of_mod_eq_zero h2)).symm
  · rw [not_not] at h4
    exact (Nat.div_mul_cancel (Nat.dvd_of_mod_eq_zero h4)).symm

theorem getElem?_block (c : List Int) (o m k : Nat) (hk : k < m) :
    ((c.drop o).take m)[k]? = c[o + k]? := by
  rw [List.getElem?_take, if_pos hk, List.getElem?_drop]

/-- **C66**: the switchboard that `get_out_channel_node` returns for an output channel gives, on every row,
the block of that channel of what the whole switchboard gives. -/
theorem out_channel_node {n : Nat} {c : List Int} {od idim : Nat} {s : CSB}
    (h : Channel.new n c od idim = .ok s) (ch : Nat) (hch : ch < s.outputChannels) :
    ∃ t, s.outChannelNode ch = .ok t ∧
      ∀ (row y : List α), row.length = n → s.toSB.execute row = .ok y →
        t.execute row = .ok ((y.drop (ch * od)).take od) := by
  obtain ⟨e1, e2, e3, e4, e5, e6, e7, e8, e9⟩ := channel_fields h
  have hle : ch * od + od ≤ c.length := by
    rw [e7]
    calc ch * od + od = (ch + 1) * od := by ring
      _ ≤ _ := Nat.mul_le_mul_right _ hch
  obtain ⟨_, f1, f2⟩ := new_fields e5
  have hsub : ∀ i ∈ s.outChannelInput ch, i ∈ c := by
    intro i hi
    unfold CSB.outChannelInput at hi
    rw [e2] at hi
    exact List.mem_of_mem_drop (List.mem_of_mem_take hi)
  have hlen : (s.outChannelInput ch).length = od := by
    unfold CSB.outChannelInput
    rw [e2, e3, List.length_take, List.length_drop]
    omega
  obtain ⟨t, ht⟩ := (construction n (s.outChannelInput ch)).1.2
    ⟨by intro hh; rw [hh] at hlen; simp at hlen; omega, fun i hi => f2 i (hsub i hi)⟩
  refine ⟨t, by unfold CSB.outChannelNode; rw [e1]; exact ht, ?_⟩
  intro row y hrow hy
  obtain ⟨rfl, _, _⟩ := new_fields ht
  unfold SB.execute at hy ⊢
  rw [e2] at hy
  obtain ⟨y1, y2, y3⟩ := fancy_ok hy
  simp only
  obtain ⟨z, hz⟩ := fancy_succeeds (row := row) (c := s.outChannelInput ch) fun i hi => y2 i (hsub i hi)
  obtain ⟨z1, z2, z3⟩ := fancy_ok hz
  rw [hz]
  congr 1
  apply List.ext_getElem?
  intro k
  by_cases hk : k < od
  · have hk' : k < (s.outChannelInput ch).length := by omega
    have q := z3 k _ (List.getElem?_eq_getElem hk')
    rw [q]
    have hck : c[ch * od + k]? = some (s.outChannelInput ch)[k] := by
      rw [← List.getElem?_eq_getElem hk']
      unfold CSB.outChannelInput
      rw [e2, e3, getElem?_block _ _ _ _ hk]
    rw [List.getElem?_take, if_pos hk, List.getElem?_drop]
    exact (y3 _ _ hck).symm
  · rw [List.getElem?_eq_none_iff.2 (by omega), List.getElem?_eq_none_iff.2 (by simp; omega)]

/-- **C66**: `get_out_channels_input_channels` returns, in ascending order and each once, exactly the input
channels that some connection of one of the given output channels comes from. -/
theorem input_channels_of {n : Nat} {c : List Int} {od idim : Nat} {s : CSB}
    (h : Channel.new n c od idim = .ok s) (h0 : ∀ i ∈ c, 0 ≤ i) (chs : List Nat)
    (hchs : ∀ ch ∈ chs, ch < s.outputChannels) :
    ∃ r, s.inputChannelsOf chs = .ok r ∧ r.Pairwise (· < ·) ∧
      ∀ a, a ∈ r ↔ ∃ ch ∈ chs, ∃ k < od, ∃ i : Nat, c[ch * od + k]? = some (i : Int) ∧ i / idim = a := by
  obtain ⟨e1, e2, e3, e4, e5, e6, e7, e8, e9⟩ := channel_fields h
  obtain ⟨_, f1, f2⟩ := new_fields e5
  unfold CSB.inputChannelsOf
  rw [if_neg (by simp only [List.any_eq_true, decide_eq_true_eq, not_exists, not_and]; intro a ha; have := hchs a ha; omega)]
  refine ⟨_, rfl, List.pairwise_lt_range.filter _, ?_⟩
  intro a
  rw [List.mem_filter]
  simp only [List.mem_range, List.any_eq_true, id, e1, e4]
  constructor
  · rintro ⟨ha, b, hb, rfl⟩
    obtain ⟨k, hk⟩ := List.mem_iff_getElem?.1 hb
    rw [List.getElem?_take] at hk
    split at hk
    · rename_i hki
      rw [List.getElem?_drop, List.getElem?_map] at hk
      rcases hr : (List.range n)[a * idim + k]? with _ | q
      · rw [hr] at hk; cases hk
      rw [hr] at hk
      simp only [Option.map_some, Option.some.injEq, List.any_eq_true] at hk
      have hq : q = a * idim + k ∧ q < n := by
        have := List.getElem?_eq_some_iff.1 hr
        obtain ⟨x1, x2⟩ := this
        simp at x1 x2
        omega
      obtain ⟨i, hi, hin⟩ := hk
      simp only [List.mem_flatMap] at hi
      obtain ⟨ch, hch, hich⟩ := hi
      unfold CSB.outChannelInput at hich
      rw [e2, e3] at hich
      obtain ⟨k', hk'⟩ := List.mem_iff_getElem?.1 hich
      rw [List.getElem?_take] at hk'
      split at hk'
      · rename_i hko
        rw [List.getElem?_drop] at hk'
        have him := List.mem_of_getElem? hk'
        have i0 := h0 i him
        have i1 := f2 i him
        rw [normIdx_nonneg i0 i1] at hin
        simp only [beq_iff_eq, Option.some.injEq] at hin
        refine ⟨ch, hch, k', hko, q, by rw [hk', ← hin]; congr 1; omega, ?_⟩
        rw [hq.1, Nat.mul_comm, Nat.mul_add_div (by omega), Nat.div_eq_of_lt hki, Nat.add_zero]
      · cases hk'
    · cases hk
  · rintro ⟨ch, hch, k, hk, i, hi, rfl⟩
    have hin : i < n := by have := f2 _ (List.mem_of_getElem? hi); omega
    refine ⟨?_, true, ?_, rfl⟩
    · unfold CSB.inputChannels
      rw [e1, e4]
      rw [Nat.div_lt_iff_lt_mul e8]
      have : n / idim * idim = n := by
        have := e9; unfold CSB.inputChannels at this; rw [e1, e4] at this; exact this.symm
      omega
    · rw [List.mem_iff_getElem?]
      refine ⟨i % idim, ?_⟩
      rw [List.getElem?_take, if_pos (Nat.mod_lt _ e8), List.getElem?_drop, Nat.div_add_mod', List.getElem?_map,
        List.getElem?_range hin]
      simp only [Option.map_some, Option.some.injEq, List.any_eq_true]
      refine ⟨(i : Int), ?_, ?_⟩
      · simp only [List.mem_flatMap]
        refine ⟨ch, hch, ?_⟩
        unfold CSB.outChannelInput
        rw [e2, e3, List.mem_iff_getElem?]
        exact ⟨k, by rw [getElem?_block _ _ _ _ hk]; exact hi⟩
      · rw [normIdx_nonneg (by omega) (by omega)]; simp

example : ∃ s, Channel.new 6 [0, 1, 4, 5, 2, 3, 0, 1] 4 2 = .ok s ∧ s.outputChannels = 2 ∧
    s.inputChannelsOf [1] = .ok [0, 1] := ⟨_, rfl, rfl, by decide⟩

end Mdp.Switchboard
