import Verif.Nodes.RecExpansionProps
import Mathlib.Tactic.Positivity

/-!
# Small degrees, dimensions and normalisation
-/

namespace Mdp.RecExp

open Mdp.Expansion (expandedDim)

variable {F : Type} [Field F] {n : Nat}

/-! ## Degree one and zero -/

theorem dim_one (n : Nat) : (expandedDim 1 n + 1).toNat = n + 1 := by
  have h := Expansion.expandedDim_correct 1 n
  have h2 : expandedDim 1 n = n := by
    unfold expandedDim Expansion.comb
    simp [List.range_succ]
  rw [h2]; omega

theorem copyRow (x : Fin n → F) (done rem : List (Fin n)) (hd : List.finRange n = done ++ rem) (rest : List F)
    (hr : rest.length = rem.length) :
    rem.foldlM (fun r (i : Fin n) => put r (i.1 + 1) (x i)) (1 :: (done.map x ++ rest)) =
      some (1 :: (List.finRange n).map x) := by
  induction rem generalizing done rest with
  | nil =>
    have : rest = [] := List.length_eq_zero_iff.1 (by simpa using hr)
    subst this
    rw [hd]; simp
  | cons i rem ih =>
    have hi : i.1 = done.length := by
      have h1 : (List.finRange n)[done.length]? = some i := by rw [hd]; simp
      obtain ⟨hlt, h2⟩ := List.getElem?_eq_some_iff.1 h1
      rw [← h2]; simp
    cases rest with
    | nil => simp at hr
    | cons b rest =>
      rw [List.foldlM_cons]
      have := put_ok (1 :: done.map x) (b :: rest) (x i) (by simp)
      rw [List.length_cons, List.length_map, ← hi] at this
      rw [← List.cons_append, this]
      simp only [Option.bind_eq_bind, Option.bind_some]
      have h3 := ih (done ++ [i]) (by simp [hd]) rest (by simpa using hr)
      simpa using h3

theorem todo_one (s : St F) (h : ∀ t ∈ s.todo, t.2.2 = 1) : Py.Returns (todoStep 1) s (some s.buf) := by
  obtain ⟨buf, pos, todo⟩ := s
  induction todo with
  | nil => exact Py.Returns.of_inr rfl
  | cons t ts ih =>
    refine Py.Returns.of_inl (s' := ⟨buf, pos, ts⟩) ?_ (ih (fun u hu => h u (List.mem_cons_of_mem _ hu)))
    have h1 : t.2.2 = 1 := h t (List.mem_cons_self)
    unfold todoStep
    simp only
    rw [h1]
    have : process t.1 t.2.1 1 1 (⟨buf, pos, ts⟩ : St F) = some ⟨buf, pos, ts⟩ := by
      unfold process processVar
      generalize List.range t.2.1 = l
      induction l with
      | nil => rfl
      | cons a l ih => rw [List.foldlM_cons]; simpa using ih
    rw [this]

/-- C127: with degree one every family returns the constant and the row itself. -/
theorem degree_one (k : Kind) (with0 : Bool) (x : Fin n → F) (junk : Nat → F) (r : Res F) :
    Executes k 1 with0 x junk r ↔ r = .row (if with0 then 1 :: (List.finRange n).map x else (List.finRange n).map x) := by
  have hf : firsts k 1 x junk = some (1 :: (List.finRange n).map x, 1) := by
    unfold firsts
    obtain ⟨b, tl, he, hl⟩ : ∃ b tl, empty 1 n junk = b :: tl ∧ tl.length = n := by
      have hl : (empty 1 n junk).length = n + 1 := by
        unfold empty
        rw [List.length_map, List.length_range]
        exact dim_one n
      cases h : empty 1 n junk with
      | nil => rw [h] at hl; simp at hl
      | cons b tl => rw [h] at hl; exact ⟨b, tl, rfl, by simpa using hl⟩
    rw [he]
    have h1 : put (b :: tl) 0 1 = some (1 :: tl) := by simp [put]
    have h2 : put (1 :: tl) 0 (1 : F) = some (1 :: tl) := by simp [put]
    simp only [h1, h2, Option.bind_eq_bind, Option.bind_some, gt_iff_lt, lt_self_iff_false, if_false]
    have := copyRow x [] (List.finRange n) rfl tl (by simp [hl])
    rw [List.map_nil, List.nil_append] at this
    rw [this]
    rfl
  have ht := todo_one (⟨1 :: (List.finRange n).map x, 1, todo0 1 n⟩ : St F) (by
    intro t ht
    simp only [todo0, List.mem_map] at ht
    obtain ⟨i, _, rfl⟩ := ht
    rfl)
  unfold Executes
  rw [if_neg (by decide), hf]
  simp only
  constructor
  · rintro ⟨o, ho, rfl⟩
    rw [Py.Returns.det ho ht]
    simp
  · rintro rfl
    exact ⟨_, ht, by simp⟩

theorem basis_one [CharZero F] (k : Kind) (h : k ≠ .rational) (x : F) : k.basis 1 x = x := by
  cases k with
  | standard => simp [Kind.basis]
  | legendre => exact legendre_one x
  | rational => exact absurd rfl h
  | chebyshev => simp [Kind.basis]

/-- C127, degree one: the row consists of the functions of order one, except for the rational functions. -/
theorem degree_one_partial [CharZero F] (k : Kind) (hk : k ≠ .rational) (with0 : Bool) (x : Fin n → F) (junk : Nat → F)
    (r : Res F) :
    Executes k 1 with0 x junk r ↔ r = .row (if with0 then 1 :: (List.finRange n).map (fun j => k.basis 1 (x j))
      else (List.finRange n).map fun j => k.basis 1 (x j)) := by
  simp only [basis_one k hk]
  exact degree_one k with0 x junk r

/-- C127 does not hold for `'legendre_rational'` with degree one: for every row in the domain the column of a variable
contains the variable itself, which is never the value of the rational Legendre function of order one. -/
theorem rational_degree_one_false [LinearOrder F] [IsStrictOrderedRing F] (x : Fin n → F) (hx : ∀ j, 0 ≤ x j)
    (with0 : Bool) (junk : Nat → F) (r : Res F) :
    (Executes .rational 1 with0 x junk r → ∃ l, r = .row l ∧
      ∀ j : Fin n, l[j.1 + if with0 then 1 else 0]? = some (x j) ∧ x j ≠ Kind.basis .rational 1 (x j)) := by
  rw [degree_one]
  rintro rfl
  refine ⟨_, rfl, fun j => ⟨?_, ?_⟩⟩
  · cases with0 <;> simp
  · show x j ≠ legendre 1 _
    rw [legendre_one]
    intro h
    have h1 : x j + 1 ≠ 0 := by have := hx j; positivity
    rw [eq_div_iff h1] at h
    have : x j * x j = -1 := by linear_combination h
    have h2 := mul_self_nonneg (x j)
    rw [this] at h2
    linarith [zero_lt_one (α := F)]

/-- C127 does not hold for degree zero: `with0` gives as many ones as there are variables (the only product of degree
zero is the constant), otherwise `None` is returned. -/
theorem degree_zero_false (k : Kind) (x : Fin n → F) (junk : Nat → F) (r : Res F) :
    (Executes k 0 true x junk r ↔ r = .row (List.replicate n 1)) ∧
    (Executes k 0 false x junk r ↔ r = .none) ∧
    outDim 0 true n = 1 ∧ outDim 0 false n = 0 := by
  refine ⟨by simp [Executes], by simp [Executes], ?_, ?_⟩ <;> simp [outDim, expandedDim, Expansion.comb]

/-- Chebyshev polynomials up to degree three in two variables, at `(2, 3)`. -/
example : Executes .chebyshev 3 true ![(2 : ℚ), 3] (fun _ => 99) (.row [1, 2, 7, 26, 3, 17, 99, 6, 34, 21]) := by
  have h : firsts .chebyshev 3 ![(2 : ℚ), 3] (fun _ => 99) = some ([1, 2, 7, 26, 3, 17, 99, 99, 99, 99], 7) := by
    decide +kernel
  unfold Executes
  rw [if_neg (by decide), h]
  exact ⟨some [1, 2, 7, 26, 3, 17, 99, 6, 34, 21], ⟨4, by decide +kernel⟩, rfl⟩

/-! ## The number of columns -/

/-- C128: for a degree of at least one, the expansion returns exactly one result, a row, and it has `output_dim`
columns. -/
theorem output_dim_partial [CharZero F] (k : Kind) (deg : Nat) (hd : 1 ≤ deg) (with0 : Bool) (x : Fin n → F)
    (hx : k = .rational → ∀ j, x j ≠ -1) (junk : Nat → F) :
    ∃ l : List F, (∀ r, Executes k deg with0 x junk r ↔ r = .row l) ∧ (l.length : Int) = outDim deg with0 n := by
  rcases Nat.eq_or_lt_of_le hd with h | h
  · subst h
    refine ⟨_, fun r => degree_one k with0 x junk r, ?_⟩
    have := dim_one n
    have h2 : expandedDim 1 n = n := by
      unfold expandedDim Expansion.comb
      simp [List.range_succ]
    cases with0 <;> simp [outDim, h2]
  · obtain ⟨es, h1, h2, _, h4⟩ := expansion deg n h
    refine ⟨_, fun r => h4 F k with0 x junk r hx, ?_⟩
    have hp : es.Perm ((total deg n).map (restrict n)) := by
      rw [List.perm_ext_iff_of_nodup h1 (nodup_restrict deg n)]
      intro e
      rw [h2, mem_restrict]
    have hl := hp.length_eq
    rw [List.length_map] at hl
    have ht := length_total deg n hd
    cases with0
    · simp only [outDim, Bool.false_eq_true, if_false, List.length_map, List.length_drop]
      have : 1 ≤ es.length := by
        have : (fun _ => 0) ∈ es := (h2 _).2 (by simp)
        exact List.length_pos_of_mem this
      omega
    · simp only [outDim, if_true, List.length_map]
      omega

/-! ## Normalisation -/

variable [LinearOrder F] [IsStrictOrderedRing F]

/-- A value lies in the domain. -/
def Inside (dom : Bound F × Bound F) (a : F) : Prop :=
  (∀ l, dom.1 = .val l → l ≤ a) ∧ (∀ u, dom.2 = .val u → a ≤ u)

/-- `m` is the greatest element of a list. -/
def Greatest (l : List F) (m : F) : Prop := m ∈ l ∧ ∀ a ∈ l, a ≤ m

/-- `m` is the least element of a list. -/
def Least (l : List F) (m : F) : Prop := m ∈ l ∧ ∀ a ∈ l, m ≤ a

theorem foldl_max (l : List F) (a : F) : Greatest (a :: l) (l.foldl max a) := by
  induction l generalizing a with
  | nil => exact ⟨by simp, by simp⟩
  | cons b l ih =>
    obtain ⟨h1, h2⟩ := ih (max a b)
    rw [List.foldl_cons]
    refine ⟨?_, ?_⟩
    · rcases List.mem_cons.1 h1 with h | h
      · rw [h]
        rcases max_choice a b with e | e <;> rw [e] <;> simp
      · simp [h]
    · intro c hc
      have h3 := h2 (max a b) (by simp)
      simp only [List.mem_cons] at hc
      rcases hc with rfl | rfl | hc
      · exact le_trans (le_max_left _ _) h3
      · exact le_trans (le_max_right _ _) h3
      · exact h2 c (by simp [hc])

theorem foldl_min (l : List F) (a : F) : Least (a :: l) (l.foldl min a) := by
  induction l generalizing a with
  | nil => exact ⟨by simp, by simp⟩
  | cons b l ih =>
    obtain ⟨h1, h2⟩ := ih (min a b)
    rw [List.foldl_cons]
    refine ⟨?_, ?_⟩
    · rcases List.mem_cons.1 h1 with h | h
      · rw [h]
        rcases min_choice a b with e | e <;> rw [e] <;> simp
      · simp [h]
    · intro c hc
      have h3 := h2 (min a b) (by simp)
      simp only [List.mem_cons] at hc
      rcases hc with rfl | rfl | hc
      · exact le_trans h3 (min_le_left _ _)
      · exact le_trans h3 (min_le_right _ _)
      · exact h2 c (by simp [hc])

theorem amax_spec (l : List F) (m : F) (h : amax l = some m) : Greatest l m := by
  cases l with
  | nil => simp [amax] at h
  | cons a l => simp only [amax, Option.some.injEq] at h; subst h; exact foldl_max l a

theorem amin_spec (l : List F) (m : F) (h : amin l = some m) : Least l m := by
  cases l with
  | nil => simp [amin] at h
  | cons a l => simp only [amin, Option.some.injEq] at h; subst h; exact foldl_min l a

/-- C129: the check passes exactly if there are values, and all of them lie in the domain widened by `prec`. -/
theorem check_spec (dom : Bound F × Bound F) (prec : F) (xs : List (Fin n → F)) :
    checkDomain dom prec xs = some true ↔ (xs ≠ [] ∧ n ≠ 0) ∧ ∀ x ∈ xs, ∀ j,
      (∀ l, dom.1 = .val l → l - prec ≤ x j) ∧ (∀ u, dom.2 = .val u → x j ≤ u + prec) := by
  have hmem : ∀ a, a ∈ entries xs ↔ ∃ x ∈ xs, ∃ j, x j = a := by
    intro a
    simp [entries, List.mem_flatMap, List.mem_map]
  by_cases hne : xs ≠ [] ∧ n ≠ 0
  · obtain ⟨y, hy⟩ := List.exists_mem_of_ne_nil xs hne.1
    have j0 : Fin n := ⟨0, Nat.pos_of_ne_zero hne.2⟩
    have hex : y j0 ∈ entries xs := (hmem _).2 ⟨y, hy, j0, rfl⟩
    obtain ⟨M, hM⟩ : ∃ M, amax (entries xs) = some M := by
      cases h : entries xs with
      | nil => rw [h] at hex; simp at hex
      | cons a l => exact ⟨_, rfl⟩
    obtain ⟨m, hm⟩ : ∃ m, amin (entries xs) = some m := by
      cases h : entries xs with
      | nil => rw [h] at hex; simp at hex
      | cons a l => exact ⟨_, rfl⟩
    obtain ⟨M1, M2⟩ := amax_spec _ _ hM
    obtain ⟨m1, m2⟩ := amin_spec _ _ hm
    have hall : ∀ x ∈ xs, ∀ j, x j ≤ M ∧ m ≤ x j := fun x hx j =>
      ⟨M2 _ ((hmem _).2 ⟨x, hx, j, rfl⟩), m2 _ ((hmem _).2 ⟨x, hx, j, rfl⟩)⟩
    obtain ⟨xM, hxM, jM, eM⟩ := (hmem _).1 M1
    obtain ⟨xm, hxm, jm, em⟩ := (hmem _).1 m1
    unfold checkDomain
    simp only [hM, hm, Option.bind_eq_bind, Option.bind_some, Option.some.injEq, Bool.not_eq_true', Bool.or_eq_false_iff]
    constructor
    · rintro ⟨ha, hb⟩
      refine ⟨hne, fun x hx j => ⟨fun l hl => ?_, fun u hu => ?_⟩⟩
      · rw [hl] at hb
        simp only [decide_eq_false_iff_not, not_lt] at hb
        have := (hall x hx j).2
        linarith
      · rw [hu] at ha
        simp only [decide_eq_false_iff_not, not_lt] at ha
        have := (hall x hx j).1
        linarith
    · rintro ⟨_, h⟩
      constructor
      · cases hu : dom.2 with
        | inf => rfl
        | val u =>
          have := (h xM hxM jM).2 u hu
          simp only [decide_eq_false_iff_not, not_lt]
          rw [← eM]; linarith
      · cases hl : dom.1 with
        | inf => rfl
        | val l =>
          have := (h xm hxm jm).1 l hl
          simp only [decide_eq_false_iff_not, not_lt]
          rw [← em]; linarith
  · constructor
    · intro h
      exfalso
      apply hne
      have he : entries xs ≠ [] := by
        intro he
        unfold checkDomain at h
        rw [he] at h
        simp [amax] at h
      obtain ⟨a, ha⟩ := List.exists_mem_of_ne_nil _ he
      obtain ⟨x, hx, j, _⟩ := (hmem a).1 ha
      exact ⟨List.ne_nil_of_mem hx, by have := j.2; omega⟩
    · rintro ⟨h, _⟩
      exact absurd h hne

/-- The check: exactly at the tolerance, and beyond. -/
example : checkDomain (n := 2) (Kind.domain .legendre) (1 / 10 : ℚ) [fun _ => 1, ![11 / 10, -1]] = some true ∧
    checkDomain (n := 2) (Kind.domain .legendre) (1 / 10 : ℚ) [fun _ => 1, ![1, -6 / 5]] = some false := by
  constructor <;> decide +kernel

/-- The collected extrema are those of the rows seen. -/
structure RangeOf (r : Range F n) (xs : List (Fin n → F)) : Prop where
  hi : ∀ j, Greatest (xs.map fun x => x j) (r.amaxcolumn j)
  lo : ∀ j, Least (xs.map fun x => x j) (r.amincolumn j)
  max : Greatest (xs.flatMap fun x => (List.finRange n).map x) r.amax
  min : Least (xs.flatMap fun x => (List.finRange n).map x) r.amin

theorem colMax_spec (x : Fin n → F) (xs : List (Fin n → F)) (j : Fin n) :
    Greatest ((x :: xs).map fun y => y j) (colMax x xs j) := by
  have : colMax x xs j = (xs.map fun y => y j).foldl max (x j) := by
    unfold colMax; rw [List.foldl_map]
  rw [this, List.map_cons]
  exact foldl_max _ _

theorem colMin_spec (x : Fin n → F) (xs : List (Fin n → F)) (j : Fin n) :
    Least ((x :: xs).map fun y => y j) (colMin x xs j) := by
  have : colMin x xs j = (xs.map fun y => y j).foldl min (x j) := by
    unfold colMin; rw [List.foldl_map]
  rw [this, List.map_cons]
  exact foldl_min _ _

theorem Greatest.append {a b : List F} {p q : F} (h1 : Greatest a p) (h2 : Greatest b q) :
    Greatest (a ++ b) (max p q) := by
  refine ⟨?_, fun c hc => ?_⟩
  · rcases max_choice p q with e | e <;> rw [e]
    · exact List.mem_append_left _ h1.1
    · exact List.mem_append_right _ h2.1
  · rcases List.mem_append.1 hc with h | h
    · exact le_trans (h1.2 c h) (le_max_left _ _)
    · exact le_trans (h2.2 c h) (le_max_right _ _)

theorem Least.append {a b : List F} {p q : F} (h1 : Least a p) (h2 : Least b q) :
    Least (a ++ b) (min p q) := by
  refine ⟨?_, fun c hc => ?_⟩
  · rcases min_choice p q with e | e <;> rw [e]
    · exact List.mem_append_left _ h1.1
    · exact List.mem_append_right _ h2.1
  · rcases List.mem_append.1 hc with h | h
    · exact le_trans (min_le_left _ _) (h1.2 c h)
    · exact le_trans (min_le_right _ _) (h2.2 c h)

theorem global_max (hi : Fin n → F) (xs : List (Fin n → F)) (M : F)
    (h : ∀ j, Greatest (xs.map fun x => x j) (hi j)) (hM : Greatest ((List.finRange n).map hi) M) :
    Greatest (xs.flatMap fun x => (List.finRange n).map x) M := by
  refine ⟨?_, ?_⟩
  · obtain ⟨j, _, e⟩ := List.mem_map.1 hM.1
    obtain ⟨x, hx, e'⟩ := List.mem_map.1 (h j).1
    rw [← e, ← e']
    exact List.mem_flatMap.2 ⟨x, hx, List.mem_map.2 ⟨j, List.mem_finRange j, rfl⟩⟩
  · intro a ha
    obtain ⟨x, hx, ha⟩ := List.mem_flatMap.1 ha
    obtain ⟨j, _, rfl⟩ := List.mem_map.1 ha
    exact le_trans ((h j).2 _ (List.mem_map.2 ⟨x, hx, rfl⟩)) (hM.2 _ (List.mem_map.2 ⟨j, List.mem_finRange j, rfl⟩))

theorem global_min (lo : Fin n → F) (xs : List (Fin n → F)) (m : F)
    (h : ∀ j, Least (xs.map fun x => x j) (lo j)) (hm : Least ((List.finRange n).map lo) m) :
    Least (xs.flatMap fun x => (List.finRange n).map x) m := by
  refine ⟨?_, ?_⟩
  · obtain ⟨j, _, e⟩ := List.mem_map.1 hm.1
    obtain ⟨x, hx, e'⟩ := List.mem_map.1 (h j).1
    rw [← e, ← e']
    exact List.mem_flatMap.2 ⟨x, hx, List.mem_map.2 ⟨j, List.mem_finRange j, rfl⟩⟩
  · intro a ha
    obtain ⟨x, hx, ha⟩ := List.mem_flatMap.1 ha
    obtain ⟨j, _, rfl⟩ := List.mem_map.1 ha
    exact le_trans (hm.2 _ (List.mem_map.2 ⟨j, List.mem_finRange j, rfl⟩)) ((h j).2 _ (List.mem_map.2 ⟨x, hx, rfl⟩))

theorem train_first (xs : List (Fin n → F)) (r : Range F n) (h : train none xs = some r) : RangeOf r xs := by
  cases xs with
  | nil => simp [train] at h
  | cons x xs =>
    simp only [train, Option.bind_eq_bind] at h
    cases h1 : amax ((List.finRange n).map (colMax x xs)) with
    | none => rw [h1] at h; simp at h
    | some M =>
      cases h2 : amin ((List.finRange n).map (colMin x xs)) with
      | none => rw [h1, h2] at h; simp at h
      | some m =>
        rw [h1, h2] at h
        simp only [Option.bind_some, Option.some.injEq] at h
        subst h
        exact ⟨fun j => colMax_spec x xs j, fun j => colMin_spec x xs j,
          global_max _ _ _ (fun j => colMax_spec x xs j) (amax_spec _ _ h1),
          global_min _ _ _ (fun j => colMin_spec x xs j) (amin_spec _ _ h2)⟩

theorem train_next (ys xs : List (Fin n → F)) (q r : Range F n) (hq : RangeOf q ys) (h : train (some q) xs = some r) :
    RangeOf r (ys ++ xs) := by
  cases xs with
  | nil => simp [train] at h
  | cons x xs =>
    simp only [train, Option.bind_eq_bind] at h
    have a1 : ∀ j, Greatest ((ys ++ x :: xs).map fun y => y j) (max (q.amaxcolumn j) (colMax x xs j)) := fun j => by
      rw [List.map_append]; exact (hq.hi j).append (colMax_spec x xs j)
    have a2 : ∀ j, Least ((ys ++ x :: xs).map fun y => y j) (min (q.amincolumn j) (colMin x xs j)) := fun j => by
      rw [List.map_append]; exact (hq.lo j).append (colMin_spec x xs j)
    cases h1 : amax ((List.finRange n).map fun j => max (q.amaxcolumn j) (colMax x xs j)) with
    | none => rw [h1] at h; simp at h
    | some M =>
      cases h2 : amin ((List.finRange n).map fun j => min (q.amincolumn j) (colMin x xs j)) with
      | none => rw [h1, h2] at h; simp at h
      | some m =>
        rw [h1, h2] at h
        simp only [Option.bind_some, Option.some.injEq] at h
        subst h
        exact ⟨a1, a2, global_max _ _ _ a1 (amax_spec _ _ h1), global_min _ _ _ a2 (amin_spec _ _ h2)⟩

theorem trainAll_some (ys : List (Fin n → F)) (q r : Range F n) (cs : List (List (Fin n → F))) (hq : RangeOf q ys)
    (h : trainAll (some q) cs = some (some r)) : RangeOf r (ys ++ cs.flatten) := by
  induction cs generalizing ys q with
  | nil =>
    simp only [trainAll, Option.some.injEq] at h
    subst h; simpa using hq
  | cons c cs ih =>
    simp only [trainAll, Option.bind_eq_bind] at h
    cases h1 : train (some q) c with
    | none => rw [h1] at h; simp at h
    | some p =>
      rw [h1] at h
      have := ih (ys ++ c) p (train_next ys c q p hq h1) h
      simpa [List.append_assoc] using this

/-- C130: however the training data are cut into chunks, the collected extrema are those of all the data. -/
theorem train_range (cs : List (List (Fin n → F))) (r : Range F n) (h : trainAll none cs = some (some r)) :
    RangeOf r cs.flatten := by
  cases cs with
  | nil => simp [trainAll] at h
  | cons c cs =>
    simp only [trainAll, Option.bind_eq_bind] at h
    cases h1 : train none c with
    | none => rw [h1] at h; simp at h
    | some p =>
      rw [h1] at h
      exact trainAll_some c p r cs (train_first c p h1) h

/-- Training succeeds if no chunk is empty and there is a column. -/
theorem train_defined (cs : List (List (Fin n → F))) (hn : n ≠ 0) (hc : ∀ c ∈ cs, c ≠ []) (s : Option (Range F n)) :
    ∃ s', trainAll s cs = some s' ∧ (cs ≠ [] → s'.isSome) := by
  induction cs generalizing s with
  | nil => exact ⟨s, rfl, by simp⟩
  | cons c cs ih =>
    obtain ⟨p, hp⟩ : ∃ p, train s c = some p := by
      cases c with
      | nil => exact absurd rfl (hc [] (by simp))
      | cons x xs =>
        have : ∀ f : Fin n → F, ∃ M, amax ((List.finRange n).map f) = some M := by
          intro f
          obtain ⟨m, rfl⟩ := Nat.exists_eq_succ_of_ne_zero hn
          rw [List.finRange_succ]
          exact ⟨_, rfl⟩
        have this' : ∀ f : Fin n → F, ∃ M, amin ((List.finRange n).map f) = some M := by
          intro f
          obtain ⟨m, rfl⟩ := Nat.exists_eq_succ_of_ne_zero hn
          rw [List.finRange_succ]
          exact ⟨_, rfl⟩
        cases s with
        | none =>
          obtain ⟨M, hM⟩ := this (colMax x xs)
          obtain ⟨m, hm⟩ := this' (colMin x xs)
          refine ⟨⟨colMax x xs, colMin x xs, M, m⟩, ?_⟩
          simp only [train, hM, hm, Option.bind_eq_bind, Option.bind_some]
        | some q =>
          obtain ⟨M, hM⟩ := this (fun j => max (q.amaxcolumn j) (colMax x xs j))
          obtain ⟨m, hm⟩ := this' (fun j => min (q.amincolumn j) (colMin x xs j))
          refine ⟨⟨fun j => max (q.amaxcolumn j) (colMax x xs j), fun j => min (q.amincolumn j) (colMin x xs j), M, m⟩, ?_⟩
          simp only [train, hM, hm, Option.bind_eq_bind, Option.bind_some]
    obtain ⟨s', h1, h2⟩ := ih (fun c h => hc c (by simp [h])) (some p)
    refine ⟨s', by simp only [trainAll, hp, Option.bind_eq_bind, Option.bind_some, h1], fun _ => ?_⟩
    cases cs with
    | nil => simp only [trainAll, Option.some.injEq] at h1; rw [← h1]; rfl
    | cons _ _ => exact h2 (by simp)

theorem RangeOf.between {r : Range F n} {xs : List (Fin n → F)} (h : RangeOf r xs) {x : Fin n → F} (hx : x ∈ xs)
    (j : Fin n) : r.amincolumn j ≤ x j ∧ x j ≤ r.amaxcolumn j ∧ r.amin ≤ x j ∧ x j ≤ r.amax :=
  ⟨(h.lo j).2 _ (List.mem_map.2 ⟨x, hx, rfl⟩), (h.hi j).2 _ (List.mem_map.2 ⟨x, hx, rfl⟩),
    h.min.2 _ (List.mem_flatMap.2 ⟨x, hx, List.mem_map.2 ⟨j, List.mem_finRange j, rfl⟩⟩),
    h.max.2 _ (List.mem_flatMap.2 ⟨x, hx, List.mem_map.2 ⟨j, List.mem_finRange j, rfl⟩⟩)⟩

/-- The domain is an interval of positive length, where both ends are finite. -/
def Proper (dom : Bound F × Bound F) : Prop := ∀ l u, dom.1 = .val l → dom.2 = .val u → l < u

/-- The map into a bounded domain, for a value between the extrema. -/
theorem bounded_inside (l u M m a : F) (hlu : l < u) (h1 : m ≤ a) (h2 : a ≤ M) (hM : ¬ (M < u ∧ m > l))
    (hd : ¬ M - m < u - l) :
    l ≤ (a + (-((M + m) / 2) + (l + (u - l) / 2) * (M - m) / (u - l))) * ((u - l) / (M - m)) ∧
    (a + (-((M + m) / 2) + (l + (u - l) / 2) * (M - m) / (u - l))) * ((u - l) / (M - m)) ≤ u := by
  have hp : 0 < u - l := by linarith
  have hq : 0 < M - m := by linarith
  have e : (a + (-((M + m) / 2) + (l + (u - l) / 2) * (M - m) / (u - l))) * ((u - l) / (M - m)) =
      (a - (M + m) / 2) * ((u - l) / (M - m)) + (l + (u - l) / 2) := by
    field_simp
    ring
  rw [e]
  have e2 : l = -((M - m) / 2) * ((u - l) / (M - m)) + (l + (u - l) / 2) := by
    field_simp
    ring
  have e3 : u = ((M - m) / 2) * ((u - l) / (M - m)) + (l + (u - l) / 2) := by
    field_simp
    ring
  have hr : 0 ≤ (u - l) / (M - m) := by positivity
  constructor
  · conv => lhs; rw [e2]
    have : -((M - m) / 2) ≤ a - (M + m) / 2 := by linarith
    have := mul_le_mul_of_nonneg_right this hr
    linarith
  · conv => rhs; rw [e3]
    have : a - (M + m) / 2 ≤ (M - m) / 2 := by linarith
    have := mul_le_mul_of_nonneg_right this hr
    linarith

/-- C131: after training, every row whose values lie between the extrema of the training data (in particular every row of
the training data) is mapped into the domain. -/
theorem transform_inside (dom : Bound F × Bound F) (hdom : Proper dom) (cs : List (List (Fin n → F))) (r : Range F n)
    (h : trainAll none cs = some (some r)) (x : Fin n → F)
    (hx : x ∈ cs.flatten ∨ ∀ j, (∃ y ∈ cs.flatten, y j ≤ x j) ∧ ∃ y ∈ cs.flatten, x j ≤ y j) (j : Fin n) :
    Inside dom (transform dom r x j) := by
  have hr := train_range cs r h
  have hb : r.amincolumn j ≤ x j ∧ x j ≤ r.amaxcolumn j ∧ r.amin ≤ x j ∧ x j ≤ r.amax := by
    rcases hx with hx | hx
    · exact hr.between hx j
    · obtain ⟨⟨y, hy, h1⟩, z, hz, h2⟩ := hx j
      have hy' := hr.between hy j
      have hz' := hr.between hz j
      exact ⟨le_trans hy'.1 h1, le_trans h2 hz'.2.1, le_trans hy'.2.2.1 h1, le_trans h2 hz'.2.2.2⟩
  obtain ⟨b1, b2, b3, b4⟩ := hb
  obtain ⟨lo, up⟩ := dom
  cases lo with
  | inf =>
    cases up with
    | inf => exact ⟨fun l hl => (by cases hl), fun u hu => by cases hu⟩
    | val u =>
      refine ⟨fun l hl => (by cases hl), fun u' hu => ?_⟩
      cases hu
      show x j - max (r.amaxcolumn j - u) 0 ≤ u
      have := le_max_left (r.amaxcolumn j - u) 0
      linarith
  | val l =>
    cases up with
    | inf =>
      refine ⟨fun l' hl => ?_, fun u hu => by cases hu⟩
      cases hl
      show l ≤ x j - min (r.amincolumn j - l) 0
      have := min_le_left (r.amincolumn j - l) 0
      linarith
    | val u =>
      have hlu : l < u := hdom l u rfl rfl
      have key : l ≤ transform (.val l, .val u) r x j ∧ transform (.val l, .val u) r x j ≤ u := by
        unfold transform
        simp only
        by_cases c1 : r.amax < u ∧ r.amin > l
        · rw [if_pos c1]
          exact ⟨by linarith [c1.2], by linarith [c1.1]⟩
        · rw [if_neg c1]
          by_cases c2 : r.amax - r.amin < u - l
          · rw [if_pos c2]
            constructor <;> linarith
          · rw [if_neg c2]
            exact bounded_inside l u r.amax r.amin (x j) hlu b3 b4 c1 c2
      exact ⟨fun l' hl => by cases hl; exact key.1, fun u' hu => by cases hu; exact key.2⟩

/-- C131: the order of the values in a column is kept. -/
theorem transform_strictMono (dom : Bound F × Bound F) (hdom : Proper dom) (r : Range F n) (x y : Fin n → F) (j : Fin n)
    (hxy : x j < y j) : transform dom r x j < transform dom r y j := by
  obtain ⟨lo, up⟩ := dom
  cases lo with
  | inf =>
    cases up with
    | inf => exact hxy
    | val u => exact sub_lt_sub_right hxy _
  | val l =>
    cases up with
    | inf => exact sub_lt_sub_right hxy _
    | val u =>
      have hlu : l < u := hdom l u rfl rfl
      unfold transform
      simp only
      by_cases c1 : r.amax < u ∧ r.amin > l
      · rw [if_pos c1, if_pos c1]; exact hxy
      · rw [if_neg c1, if_neg c1]
        by_cases c2 : r.amax - r.amin < u - l
        · rw [if_pos c2, if_pos c2]; linarith
        · rw [if_neg c2, if_neg c2]
          have : 0 < (u - l) / (r.amax - r.amin) := div_pos (by linarith) (by linarith)
          exact mul_lt_mul_of_pos_right (by linarith) this

/-- C131: `execute` on the training data does not raise: the check of the domain passes for every tolerance that is not
negative. -/
theorem training_data_pass (dom : Bound F × Bound F) (hdom : Proper dom) (cs : List (List (Fin n → F)))
    (r : Range F n) (h : trainAll none cs = some (some r)) (hn : n ≠ 0) (prec : F) (hp : 0 ≤ prec) (same check : Bool)
    (xs : List (Fin n → F)) (hne : xs ≠ []) (hxs : ∀ x ∈ xs, x ∈ cs.flatten) :
    (normExecute dom r check prec same xs).2 = some (xs.map (transform dom r)) := by
  have hc : checkDomain dom prec (xs.map (transform dom r)) = some true := by
    rw [check_spec]
    refine ⟨⟨by simpa using hne, hn⟩, ?_⟩
    intro y hy j
    obtain ⟨x, hx, rfl⟩ := List.mem_map.1 hy
    have := transform_inside dom hdom cs r h x (Or.inl (hxs x hx)) j
    exact ⟨fun l hl => by have := this.1 l hl; linarith, fun u hu => by have := this.2 u hu; linarith⟩
  unfold normExecute executeArg
  simp only [hc]
  cases check <;> simp

/-- C131: if all data lie strictly inside a bounded domain, nothing is changed. -/
theorem transform_id (l u : F) (r : Range F n) (cs : List (List (Fin n → F)))
    (h : trainAll none cs = some (some r)) (hin : ∀ x ∈ cs.flatten, ∀ j, l < x j ∧ x j < u) (x : Fin n → F) :
    transform (.val l, .val u) r x = x := by
  have hr := train_range cs r h
  have h1 : r.amax < u := by
    obtain ⟨y, hy, ha⟩ := List.mem_flatMap.1 hr.max.1
    obtain ⟨j, _, e⟩ := List.mem_map.1 ha
    rw [← e]; exact (hin y hy j).2
  have h2 : r.amin > l := by
    obtain ⟨y, hy, ha⟩ := List.mem_flatMap.1 hr.min.1
    obtain ⟨j, _, e⟩ := List.mem_map.1 ha
    rw [← e]; exact (hin y hy j).1
  unfold transform
  simp only
  rw [if_pos ⟨h1, h2⟩]

/-- C131: for a domain bounded below only, each column is shifted by the smallest amount that brings the training data into
the domain. -/
theorem shift_minimal (l : F) (r : Range F n) (cs : List (List (Fin n → F))) (h : trainAll none cs = some (some r))
    (j : Fin n) : ∃ c, (∀ x : Fin n → F, transform (.val l, .inf) r x j = x j + c) ∧
      ∀ d, (∀ x ∈ cs.flatten, l ≤ x j + d) → |c| ≤ |d| := by
  have hr := train_range cs r h
  refine ⟨-min (r.amincolumn j - l) 0, fun x => by show x j - _ = _; ring, fun d hd => ?_⟩
  obtain ⟨x, hx, e⟩ := List.mem_map.1 (hr.lo j).1
  have h1 := hd x hx
  have e : x j = r.amincolumn j := e
  rw [e] at h1
  rw [abs_neg, abs_of_nonpos (min_le_right _ _)]
  rcases le_total (r.amincolumn j - l) 0 with h2 | h2
  · rw [min_eq_left h2]
    exact le_trans (by linarith) (le_abs_self d)
  · rw [min_eq_right h2]
    simp

/-! ## The caller's array -/

/-- C132: the array handed to `execute` keeps its contents if it has another dtype, or the domain is unbounded, or the
training data lie strictly inside a bounded domain. -/
theorem argument_kept_partial (dom : Bound F × Bound F) (cs : List (List (Fin n → F))) (r : Range F n)
    (h : trainAll none cs = some (some r)) (check same : Bool) (prec : F) (xs : List (Fin n → F))
    (hk : same = false ∨ dom = (.inf, .inf) ∨ ∃ l u, dom = (.val l, .val u) ∧
      ∀ x ∈ cs.flatten, ∀ j, l < x j ∧ x j < u) :
    (normExecute dom r check prec same xs).1 = xs := by
  unfold normExecute executeArg
  rcases hk with rfl | rfl | ⟨l, u, rfl, hin⟩
  · rfl
  · cases same
    · rfl
    · show xs.map (fun x => x) = xs
      exact List.map_id' xs
  · cases same
    · rfl
    · show xs.map (transform (.val l, .val u) r) = xs
      conv => rhs; rw [← List.map_id xs]
      apply List.map_congr_left
      intro x _
      exact transform_id l u r cs h hin x

/-- C132 does not hold: for a domain bounded below only (as for `'legendre_rational'`), whenever some training value lies
below the bound, `execute` changes every row of an array of the node's dtype in the hands of the caller, and executing
the same array again expands other values than the first time. -/
theorem argument_changed_false (l : F) (cs : List (List (Fin n → F))) (r : Range F n)
    (h : trainAll none cs = some (some r)) (y : Fin n → F) (hy : y ∈ cs.flatten) (j : Fin n) (hlow : y j < l)
    (prec : F) (xs : List (Fin n → F)) (hne : xs ≠ []) :
    let first := normExecute (.val l, .inf) r false prec true xs
    let second := normExecute (.val l, .inf) r false prec true first.1
    first.1 ≠ xs ∧ second.2 ≠ first.2 := by
  have hr := train_range cs r h
  have hneg : min (r.amincolumn j - l) 0 < 0 := by
    have := (hr.between hy j).1
    have h2 := min_le_left (r.amincolumn j - l) 0
    linarith
  have hmap : ∀ zs : List (Fin n → F), zs ≠ [] → zs.map (transform (.val l, .inf) r) ≠ zs := by
    intro zs hz he
    cases zs with
    | nil => exact hz rfl
    | cons z zs =>
      rw [List.map_cons, List.cons.injEq] at he
      have := congrFun he.1 j
      have e : transform (.val l, .inf) r z j = z j - min (r.amincolumn j - l) 0 := rfl
      rw [e] at this
      linarith
  refine ⟨hmap xs hne, ?_⟩
  show (some ((xs.map (transform (.val l, .inf) r)).map (transform (.val l, .inf) r)) : Option _) ≠
    some (xs.map (transform (.val l, .inf) r))
  intro he
  exact hmap _ (by simpa using hne) (Option.some.inj he)

/-- The rational functions in one variable, trained with the values -1 and 2: executing twice. -/
example : ∃ r, trainAll none [[fun _ : Fin 1 => (-1 : ℚ)], [fun _ => 2]] = some (some r) ∧
    (normExecute (Kind.domain .rational) r true (1 / 1000) true [fun _ => -1]).1.map (fun x => x 0) = [0] ∧
    ((normExecute (Kind.domain .rational) r true (1 / 1000) true [fun _ => 0]).2.map
      fun ys => ys.map fun x => x 0) = some [1] := by
  refine ⟨⟨fun _ => 2, fun _ => -1, 2, -1⟩, ?_, ?_, ?_⟩
  · simp [trainAll, train, colMax, colMin, amax, amin, List.finRange_succ]
    exact ⟨by norm_num, by norm_num, by norm_num⟩
  · decide +kernel
  · decide +kernel

/-- Legendre polynomials with the training values -3 and 5: these go to the ends of the domain. -/
example : (normExecute (Kind.domain .legendre) (⟨fun _ => 5, fun _ => -3, 5, -3⟩ : Range ℚ 1) true (1 / 1000) true
      [fun _ => -3, fun _ => 5, fun _ => 1]).2.map (fun ys => ys.map fun x => x 0) = some [-1, 1, 0] := by
  decide +kernel

end Mdp.RecExp
