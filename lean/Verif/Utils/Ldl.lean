import Verif.Utils.SymeigSfa

/-!
# The solver `symeig_semidefinite_ldl` (mdp/utils/symeig_semidefinite.py 159-308)

LAPACK's `sytrf` and `trtri` are parameters; what they return is described in the specification below.  The work on the
pivots is modelled as it is, for blocks of size one and two.  Not modelled: `overwrite=True`, other values of `type`, missing
routines of the library, rounding.
-/

namespace Mdp.Symeig

open Mdp.Cov Mdp.Sfa Mdp.Pca

variable {F : Type} [Field F] [LinearOrder F] {d n : Nat}

/-- `sytrf(B, lower=1)`: the matrix and the pivots.  `trtri(M, lower, unitdiag)`. -/
structure Lapack (F : Type) where
  sytrf : (d : Nat) → Mat F d d → Mat F d d × (Fin d → Int)
  trtri : (d : Nat) → Mat F d d → Mat F d d

/-- The variables of the first loop: `skip_2x2`, `swap_`, `pivs`. -/
structure Piv (d : Nat) where
  skip : Bool
  swap : Fin d → Fin d
  pivs : Fin d → Nat

/-- An index into an array of length `d`. -/
def at? (d : Nat) (z : Int) : Option (Fin d) := if h : z.toNat < d then some ⟨z.toNat, h⟩ else none

/-- The body of the first loop. /repo/mdp/utils/symeig_semidefinite.py 231-250. -/
def pivStep (piv : Fin d → Int) (s : Piv d) (ind : Fin d) : Except Err (Piv d) :=
  if s.skip then .ok { s with skip := false }
  else if 0 < piv ind then
    if piv ind ≠ (ind.1 : Int) + 1 then
      match at? d (piv ind - 1) with
      | none => .error .index
      | some t => .ok { s with swap := Function.update s.swap ind (s.swap t), pivs := Function.update s.pivs ind 1 }
    else .ok { s with pivs := Function.update s.pivs ind 1 }
  else if piv ind < 0 then
    match at? d ((ind.1 : Int) + 1) with
    | none => .error .index
    | some nx =>
      if piv ind = piv nx then
        if -piv ind ≠ (ind.1 : Int) + 2 then
          match at? d (-piv ind - 1) with
          | none => .error .index
          | some t => .ok { skip := true, swap := Function.update s.swap nx (s.swap t), pivs := Function.update s.pivs ind 2 }
        else .ok { s with skip := true, pivs := Function.update s.pivs ind 2 }
      else .ok s
  else .ok s

/-- The first loop. /repo/mdp/utils/symeig_semidefinite.py 227-250. -/
def pivLoop (piv : Fin d → Int) : List (Fin d) → Piv d → Except Err (Piv d)
  | [], s => .ok s
  | ind :: l, s => match pivStep piv s ind with
    | .error e => .error e
    | .ok s => pivLoop piv l s

/-- The body of the second loop, on `lu` and `full_perm` (for `ind = 0` without a block, which does not occur, the code would
take the last column only). /repo/mdp/utils/symeig_semidefinite.py 254-258. -/
def swapStep (p : Piv d) (s : Mat F d d × (Fin d → Fin d)) (ind : Fin d) : Mat F d d × (Fin d → Fin d) :=
  if p.swap ind ≠ ind then
    let col := if p.pivs ind ≠ 0 then ind.1 else ind.1 - 1
    (fun i j => if col ≤ j.1 then s.1 (Equiv.swap (p.swap ind) ind i) j else s.1 i j, fun i => s.2 (Equiv.swap (p.swap ind) ind i))
  else s

/-- The second loop. /repo/mdp/utils/symeig_semidefinite.py 252-258. -/
def swapLoop (p : Piv d) (lu : Mat F d d) : Mat F d d × (Fin d → Fin d) :=
  (List.finRange d).reverse.foldl (swapStep p) (lu, id)

/-- `x[perm_idx] = x[perm]`, where `perm` are the places at which `full_perm` differs from `arange` and `perm_idx` its
values there; the last assignment counts. /repo/mdp/utils/symeig_semidefinite.py 260-266, 283-284. -/
def scatter {β : Type} (fp : Fin d → Fin d) (x : Fin d → β) : Fin d → β := fun r =>
  match (List.finRange d).reverse.find? fun i => decide (fp i ≠ i) && decide (fp i = r) with
  | some i => x i
  | none => x r

/-- `ev[perm] = ev[perm_idx]` for a column. /repo/mdp/utils/symeig_semidefinite.py 297. -/
def gather {β : Type} (fp : Fin d → Fin d) (x : Fin d → β) : Fin d → β := fun i => if fp i ≠ i then x (fp i) else x i

/-- `tril(LI, -1)` with ones on the diagonal. /repo/mdp/utils/symeig_semidefinite.py 278-279. -/
def trilOne (M : Mat F d d) : Mat F d d := fun i j => if i = j then 1 else if j.1 < i.1 then M i j else 0

/-- `dnz`. /repo/mdp/utils/symeig_semidefinite.py 268-269. -/
def dnz (thr : F) (lu : Mat F d d) : List (Fin d) := (List.finRange d).filter fun i => decide (thr < |lu i i|)

/-- The rows `dnz` of `LI` after it has been scaled. /repo/mdp/utils/symeig_semidefinite.py 270, 274-280. -/
def ldlRows (E : Env F) (L : Lapack F) (thr : F) (lu : Mat F d d) : List (Row F d) :=
  (dnz thr lu).map fun i j => trilOne (L.trtri d lu) i j * E.sqrt (1 / |lu i i|)

/-- The part after the pivots are known: `lu` is the matrix after all interchanges.  The two triangular products and the
choice of rows and columns give the matrix of the form `A2` in the rows `dnz` of `LI`; both branches of line 295 give the
same product. /repo/mdp/utils/symeig_semidefinite.py 268-297. -/
def Env.ldlTail (E : Env F) (L : Lapack F) (thr : F) (rng : Option (Nat × Nat)) (A lu : Mat F d d) (fp : Fin d → Fin d) :
    Except Err (List (F × Row F d) × Nat) :=
  let rows := scatter fp A
  let A2 : Mat F d d := fun i => scatter fp (rows i)
  match E.std (colsForm A2 (ldlRows E L thr lu)) rng with
  | .error e => .error e
  | .ok m => .ok (m.map fun p => (p.1, gather fp (back (ldlRows E L thr lu) p.2)), d - (dnz thr lu).length)

/-- Everything between the treatments of blank data. /repo/mdp/utils/symeig_semidefinite.py 221-297. -/
def Env.ldlCore (E : Env F) (L : Lapack F) (thr : F) (rng : Option (Nat × Nat)) (d : Nat) (A B : Mat F d d) :
    Except Err (List (F × Row F d) × Nat) :=
  match pivLoop (L.sytrf d B).2 (List.finRange d) ⟨false, id, fun _ => 0⟩ with
  | .error e => .error e
  | .ok p =>
    let s := swapLoop p (L.sytrf d B).1
    E.ldlTail L thr rng A (scatter s.2 s.1) s.2

/-- `symeig_semidefinite_ldl`. /repo/mdp/utils/symeig_semidefinite.py 159-308. -/
def Env.ldl (E : Env F) (L : Lapack F) (thr : F) (A B : Mat F (n + 1) (n + 1)) (rng : Option (Nat × Nat)) :
    Except Err (List (F × Row F (n + 1)) × Nat) := withBlank thr A B (E.ldlCore L thr rng)

/-! ## Specification -/

/-- The unit lower triangular matrix stored below the diagonal of `M`. -/
def unitLower (M : Mat F d d) : Mat F d d := fun i j => if j < i then M i j else if i = j then 1 else 0

/-- LAPACK's description of the factor, `P(k) L(k) P(k+1) L(k+1) ...` for `k` in `ks`, as a matrix: `P(k)` interchanges rows
`k` and `s k`, `L(k)` adds multiples of row `k`, stored in column `k` of `lu`, to the rows below. -/
def factor (lu : Mat F d d) (s : Fin d → Fin d) : List (Fin d) → Mat F d d
  | [] => fun i j => if i = j then 1 else 0
  | k :: ks => fun i j =>
    let i' := if i = k then s k else if i = s k then k else i
    factor lu s ks i' j + (if k < i' then lu i' k else 0) * factor lu s ks k j

/-- What is documented of LAPACK: for the semidefinite matrix `B`, `sytrf` uses single pivots (given as `s k + 1`), and `B`
is the product of the factor, the diagonal and the transposed factor; `trtri` inverts a unit lower triangular matrix. -/
structure LapackOk (L : Lapack F) (B : Mat F d d) : Prop where
  sytrf : ∃ s : Fin d → Fin d, (∀ k, k ≤ s k) ∧ (∀ k, (L.sytrf d B).2 k = ((s k).1 : Int) + 1) ∧
    ∀ i j, B i j = ∑ k, factor (L.sytrf d B).1 s (List.finRange d) i k * (L.sytrf d B).1 k k *
      factor (L.sytrf d B).1 s (List.finRange d) j k
  trtri : ∀ (M : Mat F d d) i j, ∑ k, unitLower (L.trtri d M) i k * unitLower M k j = if i = j then 1 else 0

/-- Each pivot of `B` is zero or above the threshold, and then the square root is exact. -/
def PivSep (E : Env F) (L : Lapack F) (thr : F) (B : Mat F d d) : Prop :=
  ∀ k, (L.sytrf d B).1 k k = 0 ∨ (thr < |(L.sytrf d B).1 k k| ∧
    E.sqrt (1 / |(L.sytrf d B).1 k k|) * E.sqrt (1 / |(L.sytrf d B).1 k k|) = 1 / |(L.sytrf d B).1 k k|)

/-! ## The pivots -/

theorem pivLoop_single (piv : Fin d → Int) (s : Fin d → Fin d) (hs : ∀ k, k ≤ s k) (hp : ∀ k, piv k = ((s k).1 : Int) + 1) :
    ∀ (l : List (Fin d)), l.Pairwise (· < ·) → ∀ p : Piv d, p.skip = false → (∀ k, (∃ i ∈ l, i ≤ k) → p.swap k = k) →
      ∃ q, pivLoop piv l p = .ok q ∧ (∀ k ∈ l, q.swap k = s k ∧ q.pivs k ≠ 0) ∧ ∀ k ∉ l, q.swap k = p.swap k ∧ q.pivs k = p.pivs k := by
  intro l
  induction l with
  | nil => intro _ p _ _; exact ⟨p, rfl, by simp, fun _ _ => ⟨rfl, rfl⟩⟩
  | cons a l ih =>
    intro hl p hsk hid
    obtain ⟨ha, hl⟩ := List.pairwise_cons.1 hl
    have hstep : ∃ r, pivStep piv p a = .ok r ∧ r.skip = false ∧ r.swap = Function.update p.swap a (s a) ∧
        r.pivs = Function.update p.pivs a 1 := by
      have hpos : 0 < piv a := by rw [hp]; omega
      unfold pivStep
      rw [hsk, if_neg (by simp), if_pos hpos]
      by_cases h : piv a ≠ (a.1 : Int) + 1
      · have hat : at? d (piv a - 1) = some (s a) := by
          unfold at?
          rw [hp]
          simp
        rw [if_pos h, hat]
        exact ⟨_, rfl, rfl, by simp [hid (s a) ⟨a, by simp, hs a⟩], rfl⟩
      · rw [if_neg h]
        refine ⟨_, rfl, rfl, ?_, rfl⟩
        have : s a = a := by
          push Not at h
          rw [hp] at h
          exact Fin.ext (by omega)
        rw [this]
        funext k
        by_cases hk : k = a
        · subst hk; simp [hid k ⟨k, by simp, le_refl _⟩]
        · simp [hk]
    obtain ⟨r, hr, hr1, hr2, hr3⟩ := hstep
    obtain ⟨q, hq, hq1, hq2⟩ := ih hl r hr1 fun k ⟨i, hi, hik⟩ => by
      rw [hr2, Function.update_of_ne (fun h => by subst h; exact absurd (lt_of_lt_of_le (ha i hi) hik) (lt_irrefl _))]
      exact hid k ⟨i, by simp [hi], hik⟩
    refine ⟨q, by rw [pivLoop, hr]; exact hq, fun k hk => ?_, fun k hk => ?_⟩
    · rcases List.mem_cons.1 hk with rfl | hk
      · have := hq2 k fun h => absurd (ha k h) (lt_irrefl _)
        rw [this.1, this.2, hr2, hr3]
        simp
      · exact hq1 k hk
    · simp only [List.mem_cons, not_or] at hk
      obtain ⟨h1, h2⟩ := hq2 k hk.2
      rw [h1, h2, hr2, hr3]
      simp [hk.1]

/-- The interchanges for the indices in `l`, the first one innermost. -/
def perms (s : Fin d → Fin d) : List (Fin d) → Equiv.Perm (Fin d)
  | [] => 1
  | k :: l => perms s l * Equiv.swap (s k) k

theorem swapStep_eq (p : Piv d) (s : Fin d → Fin d) (hs : ∀ k, p.swap k = s k) (hp : ∀ k, p.pivs k ≠ 0)
    (st : Mat F d d × (Fin d → Fin d)) (k : Fin d) :
    (∀ i j, (swapStep p st k).1 i j = if k ≤ j then st.1 (Equiv.swap (s k) k i) j else st.1 i j) ∧
    ∀ i, (swapStep p st k).2 i = st.2 (Equiv.swap (s k) k i) := by
  unfold swapStep
  by_cases hne : p.swap k ≠ k
  · rw [if_pos hne]
    simp only [if_pos (hp k), hs]
    exact ⟨fun i j => rfl, fun i => by trivial⟩
  · rw [if_neg hne]
    have h : Equiv.swap (s k) k = 1 := by rw [← hs k, not_not.1 hne, Equiv.swap_self]; rfl
    rw [h]
    exact ⟨fun i j => by simp, fun i => rfl⟩

theorem swapFold (p : Piv d) (s : Fin d → Fin d) (hs : ∀ k, p.swap k = s k) (hp : ∀ k, p.pivs k ≠ 0) (lu : Mat F d d) :
    ∀ l : List (Fin d), l.Pairwise (· < ·) →
      (∀ i j, (l.reverse.foldl (swapStep p) (lu, id)).1 i j = lu (perms s (l.filter fun k => decide (k ≤ j)) i) j) ∧
      ∀ i, (l.reverse.foldl (swapStep p) (lu, id)).2 i = perms s l i := by
  intro l
  induction l with
  | nil => intro _; exact ⟨fun i j => rfl, fun i => rfl⟩
  | cons k l ih =>
    intro hl
    obtain ⟨hk, hl⟩ := List.pairwise_cons.1 hl
    obtain ⟨h1, h2⟩ := ih hl
    rw [List.reverse_cons, List.foldl_append, List.foldl_cons, List.foldl_nil]
    generalize l.reverse.foldl (swapStep p) (lu, id) = st at h1 h2 ⊢
    have hfil : ∀ j, ¬ k ≤ j → l.filter (fun k => decide (k ≤ j)) = [] := by
      intro j hj
      rw [List.filter_eq_nil_iff]
      intro a ha
      simp only [decide_eq_true_eq]
      intro h
      exact hj (le_of_lt (lt_of_lt_of_le (hk a ha) h))
    obtain ⟨e1, e2⟩ := swapStep_eq p s hs hp st k
    constructor
    · intro i j
      rw [e1, List.filter_cons]
      by_cases hkj : k ≤ j
      · rw [if_pos hkj, if_pos (decide_eq_true hkj), h1]
        rfl
      · rw [if_neg hkj, if_neg (by simpa using hkj), h1, hfil j hkj]
    · intro i
      rw [e2, h2]
      rfl

theorem scatter_perm {β : Type} (σ : Equiv.Perm (Fin d)) (x : Fin d → β) (r : Fin d) : scatter σ x r = x (σ.symm r) := by
  unfold scatter
  split
  · next i hi =>
    have := List.find?_some hi
    simp only [Bool.and_eq_true, decide_eq_true_eq] at this
    rw [← this.2, Equiv.symm_apply_apply]
  · next hi =>
    rw [List.find?_eq_none] at hi
    have := hi (σ.symm r) (by simp)
    simp only [Equiv.apply_symm_apply, decide_true, Bool.and_true, decide_eq_true_eq, ne_eq, not_not] at this
    rw [← this]

theorem gather_perm {β : Type} (σ : Equiv.Perm (Fin d)) (x : Fin d → β) : gather σ x = fun i => x (σ i) := by
  funext i
  unfold gather
  split
  · rfl
  · next h => rw [not_not.1 h]

/-! ## The factor -/

theorem perms_fix (s : Fin d → Fin d) (hs : ∀ k, k ≤ s k) (l : List (Fin d)) (r : Fin d) (h : ∀ k ∈ l, r < k) :
    perms s l r = r := by
  induction l with
  | nil => rfl
  | cons k l ih =>
    have hk := h k (by simp)
    simp only [perms, Equiv.Perm.mul_apply]
    rw [Equiv.swap_apply_of_ne_of_ne (ne_of_lt (lt_of_lt_of_le hk (hs k))) (ne_of_lt hk)]
    exact ih fun a ha => h a (by simp [ha])

theorem perms_gt (s : Fin d → Fin d) (hs : ∀ k, k ≤ s k) (l : List (Fin d)) (k i : Fin d) (h : ∀ a ∈ l, k < a) :
    k < perms s l i ↔ k < i := by
  constructor
  · intro h1
    by_contra h2
    rw [perms_fix s hs l i fun a ha => lt_of_le_of_lt (not_lt.1 h2) (h a ha)] at h1
    exact h2 h1
  · intro h1
    by_contra h2
    have h3 := perms_fix s hs l (perms s l i) fun a ha => lt_of_le_of_lt (not_lt.1 h2) (h a ha)
    have := (perms s l).injective h3
    rw [this] at h2
    exact h2 h1

/-- The lower triangular matrix to which the factor for the indices in `l` reduces. -/
def low (lu : Mat F d d) (s : Fin d → Fin d) (l : List (Fin d)) : Mat F d d := fun r j =>
  if r = j then 1 else if j ∈ l ∧ j < r then lu ((perms s (l.filter fun k => decide (j < k))).symm r) j else 0

theorem factor_low (lu : Mat F d d) (s : Fin d → Fin d) (hs : ∀ k, k ≤ s k) :
    ∀ l : List (Fin d), l.Pairwise (· < ·) → ∀ i j, factor lu s l i j = low lu s l (perms s l i) j := by
  intro l
  induction l with
  | nil => intro _ i j; simp [factor, low, perms]
  | cons k l ih =>
    intro hl i j
    obtain ⟨hk, hl⟩ := List.pairwise_cons.1 hl
    have hsw : ∀ i, (if i = k then s k else if i = s k then k else i) = Equiv.swap (s k) k i := by
      intro i
      by_cases h1 : i = k
      · subst h1; simp
      · rw [if_neg h1]
        by_cases h2 : i = s k
        · subst h2; simp
        · rw [if_neg h2, Equiv.swap_apply_of_ne_of_ne h2 h1]
    simp only [factor, hsw, ih hl, perms, Equiv.Perm.mul_apply]
    generalize Equiv.swap (s k) k i = i'
    rw [perms_fix s hs l k hk]
    have hkl : k ∉ l := fun h => lt_irrefl _ (hk k h)
    have hlk : low lu s l k j = if k = j then 1 else 0 := by
      unfold low
      by_cases h : k = j
      · rw [if_pos h, if_pos h]
      · rw [if_neg h, if_neg h, if_neg]
        rintro ⟨h1, h2⟩
        exact absurd (hk j h1) (not_lt.2 (le_of_lt h2))
    rw [hlk]
    by_cases hj : k = j
    · subst hj
      have hg := perms_gt s hs l k i' hk
      have hf : (k :: l).filter (fun a => decide (k < a)) = l := by
        rw [List.filter_cons, if_neg (by simp), List.filter_eq_self]
        intro a ha
        simpa using hk a ha
      unfold low
      rw [hf]
      by_cases he : perms s l i' = k
      · rw [if_pos he, if_pos he, if_neg (by rw [← hg, he]; exact lt_irrefl _)]
        simp
      · rw [if_neg he, if_neg he]
        simp only [hkl, false_and, if_false, List.mem_cons, true_or, true_and, if_true, mul_one, zero_add, hg,
          Equiv.symm_apply_apply]
    · rw [if_neg hj, mul_zero, add_zero]
      unfold low
      by_cases he : perms s l i' = j
      · rw [if_pos he, if_pos he]
      · rw [if_neg he, if_neg he]
        simp only [List.mem_cons, Ne.symm hj, false_or]
        by_cases hm : j ∈ l ∧ j < perms s l i'
        · rw [if_pos hm, if_pos hm, List.filter_cons, if_neg (by simpa using le_of_lt (hk j hm.1))]
        · rw [if_neg hm, if_neg hm]

theorem perms_append (s : Fin d → Fin d) (a b : List (Fin d)) : perms s (a ++ b) = perms s b * perms s a := by
  induction a with
  | nil => simp [perms]
  | cons k a ih => rw [List.cons_append, perms, ih, perms, mul_assoc]

theorem filter_split (j : Fin d) (l : List (Fin d)) (hl : l.Pairwise (· < ·)) :
    l.filter (fun k => decide (k ≤ j)) ++ l.filter (fun k => decide (j < k)) = l := by
  induction l with
  | nil => rfl
  | cons k l ih =>
    obtain ⟨hk, hl⟩ := List.pairwise_cons.1 hl
    rw [List.filter_cons, List.filter_cons]
    by_cases h : k ≤ j
    · rw [if_pos (by simpa using h), if_neg (by simpa using h), List.cons_append, ih hl]
    · rw [if_neg (by simpa using h), if_pos (by simpa using h)]
      have : l.filter (fun k => decide (k ≤ j)) = [] := by
        rw [List.filter_eq_nil_iff]
        intro a ha
        simp only [decide_eq_true_eq]
        intro h1
        exact h (le_of_lt (lt_of_lt_of_le (hk a ha) h1))
      rw [this, List.nil_append]
      have := ih hl
      rw [‹l.filter (fun k => decide (k ≤ j)) = []›, List.nil_append] at this
      rw [this]

theorem finRange_lt (d : Nat) : (List.finRange d).Pairwise (· < ·) := List.pairwise_lt_finRange d

/-- After all interchanges `lu` holds the lower triangular matrix and the pivots, and `full_perm` is the product of the
interchanges. -/
theorem swapLoop_spec (p : Piv d) (s : Fin d → Fin d) (hs : ∀ k, k ≤ s k) (h1 : ∀ k, p.swap k = s k) (h2 : ∀ k, p.pivs k ≠ 0)
    (lu : Mat F d d) :
    (swapLoop p lu).2 = perms s (List.finRange d) ∧
    (∀ r j, unitLower (scatter (swapLoop p lu).2 (swapLoop p lu).1) r j = low lu s (List.finRange d) r j) ∧
    ∀ r, scatter (swapLoop p lu).2 (swapLoop p lu).1 r r = lu r r := by
  obtain ⟨e1, e2⟩ := swapFold p s h1 h2 lu (List.finRange d) (finRange_lt d)
  have hfp : (swapLoop p lu).2 = perms s (List.finRange d) := funext e2
  have key : ∀ r j, scatter (swapLoop p lu).2 (swapLoop p lu).1 r j =
      lu ((perms s ((List.finRange d).filter fun k => decide (j < k))).symm r) j := by
    intro r j
    rw [hfp, scatter_perm]
    show (swapLoop p lu).1 _ j = _
    rw [show (swapLoop p lu).1 _ j = _ from e1 _ j]
    congr 1
    have := perms_append s ((List.finRange d).filter fun k => decide (k ≤ j)) ((List.finRange d).filter fun k => decide (j < k))
    rw [filter_split j _ (finRange_lt d)] at this
    rw [Equiv.eq_symm_apply, ← Equiv.Perm.mul_apply, ← this, Equiv.apply_symm_apply]
  refine ⟨hfp, fun r j => ?_, fun r => ?_⟩
  · unfold unitLower low
    rw [key]
    by_cases h : r = j
    · subst h; simp
    · by_cases hj : j < r <;> simp [h, hj]
  · rw [key]
    congr 1
    rw [Equiv.symm_apply_eq, perms_fix s hs]
    intro k hk
    simpa using (List.mem_filter.1 hk).2

/-! ## The algebra -/

variable [IsStrictOrderedRing F]

/-- Vectors that are orthonormal for `B` and span all but its null space, and then eigenvectors of what `A` becomes. -/
theorem whiten_rows {A B : Mat F d d} (hA : Sym A) (hB : Sym B) (S : List (Row F d))
    (hSS : ∀ i j : Fin S.length, form B (S.get i) (S.get j) = if i = j then 1 else 0)
    (hspan : ∀ w : Row F d, form B (fun k => w k - ∑ i : Fin S.length, form B w (S.get i) * S.get i k)
      (fun k => w k - ∑ i : Fin S.length, form B w (S.get i) * S.get i k) = 0)
    {m : List (F × Row F S.length)} (hm : EigList (colsForm A S) m) (hasc : m.Pairwise fun p q => p.1 ≤ q.1) :
    RankList A B (m.map fun p => (p.1, back S p.2)) := by
  have hBB : ∀ u u', form B (back S u) (back S u') = dot u u' := by
    intro u u'
    rw [form_back]
    simp only [form_comm hB (back S u), form_back, hSS, mul_ite, mul_one, mul_zero, Finset.sum_ite_eq, Finset.mem_univ, if_true, dot]
    exact Finset.sum_congr rfl fun i _ => mul_comm _ _
  have hAA : ∀ u, ∀ p ∈ m, form A (back S u) (back S p.2) = p.1 * dot u p.2 := by
    intro u p hp
    rw [← form_eigen (hm.eigen p hp) u, form_back]
    have h1 : ∀ j, form A (back S u) (S.get j) = ∑ i, u i * colsForm A S i j := by
      intro j
      rw [form_comm hA, form_back]
      exact Finset.sum_congr rfl fun i _ => by rw [colsForm_eq, form_comm hA]
    simp only [h1]
    simp only [Finset.mul_sum, form]
    rw [Finset.sum_comm]
    exact Finset.sum_congr rfl fun i _ => Finset.sum_congr rfl fun j _ => by ring
  refine ⟨?_, ?_, ?_, ?_, ?_, ?_⟩
  · simp only [List.mem_map, forall_exists_index, and_imp]
    rintro _ p hp rfl
    simp only
    rw [hBB, hm.unit p hp]
  · rw [List.pairwise_map]
    exact hm.orth.imp fun {p q} h => by simp only; rw [hBB, h]
  · simp only [List.mem_map, forall_exists_index, and_imp]
    rintro _ p hp rfl
    simp only
    rw [hAA _ p hp, hm.unit p hp, mul_one]
  · rw [List.pairwise_map]
    refine List.Pairwise.imp_of_mem ?_ hm.orth
    intro p q hp hq h
    simp only
    rw [hAA _ q hq, h, mul_zero]
  · intro w
    have e1 : ∀ k, (m.map fun p => form B (back S p.2) w * back S p.2 k).sum = ∑ i : Fin S.length, form B w (S.get i) * S.get i k := by
      intro k
      let a : Row F S.length := fun i => form B w (S.get i)
      have h1 : ∀ u, form B (back S u) w = dot a u := by
        intro u
        rw [form_comm hB, form_back]
        simp only [dot, a]
        exact Finset.sum_congr rfl fun i _ => mul_comm _ _
      have : ∀ i, a i = (m.map fun p => dot a p.2 * p.2 i).sum := hm.expand a
      simp only [h1, back_eq]
      show _ = ∑ i, a i * _
      conv_rhs => enter [2, i]; rw [this i]
      simp only [← sum_get m, Finset.mul_sum, Finset.sum_mul]
      rw [Finset.sum_comm]
      exact Finset.sum_congr rfl fun i _ => Finset.sum_congr rfl fun j _ => by ring
    simp only [List.map_map, Function.comp_def, e1]
    exact hspan w
  · rw [List.pairwise_map]
    exact hasc

theorem form_perm (σ : Equiv.Perm (Fin d)) (M : Mat F d d) (x y : Row F d) :
    form M (fun i => x (σ i)) (fun i => y (σ i)) = form (fun i j => M (σ.symm i) (σ.symm j)) x y := by
  exact Fintype.sum_equiv σ _ _ fun k => Fintype.sum_equiv σ _ _ fun l => by simp

/-- Renumbering the variables. -/
theorem RankList.perm (σ : Equiv.Perm (Fin d)) {A B : Mat F d d} {l : List (F × Row F d)}
    (h : RankList (fun i j => A (σ.symm i) (σ.symm j)) (fun i j => B (σ.symm i) (σ.symm j)) l) :
    RankList A B (l.map fun p => (p.1, fun i => p.2 (σ i))) := by
  refine ⟨?_, ?_, ?_, ?_, ?_, ?_⟩
  · simp only [List.mem_map, forall_exists_index, and_imp]
    rintro _ p hp rfl
    simp only
    rw [form_perm, h.unit p hp]
  · rw [List.pairwise_map]
    exact h.orth.imp fun {p q} h => by simp only; rw [form_perm, h]
  · simp only [List.mem_map, forall_exists_index, and_imp]
    rintro _ p hp rfl
    simp only
    rw [form_perm, h.value p hp]
  · rw [List.pairwise_map]
    exact h.diag.imp fun {p q} h => by simp only; rw [form_perm, h]
  · intro w
    have hw := h.span fun i => w (σ.symm i)
    rw [← form_perm] at hw
    simp only [Equiv.symm_apply_apply] at hw
    have e : ∀ v : Row F d, form (fun i j => B (σ.symm i) (σ.symm j)) v (fun i => w (σ.symm i)) = form B (fun i => v (σ i)) w := by
      intro v
      rw [← form_perm]
      simp
    simp only [e] at hw
    simp only [List.map_map, Function.comp_def]
    exact hw
  · rw [List.pairwise_map]
    exact h.asc

theorem trilOne_eq (M : Mat F d d) : trilOne M = unitLower M := by
  funext i j
  unfold trilOne unitLower
  rcases lt_trichotomy i j with h | h | h
  · rw [if_neg (ne_of_lt h), if_neg (by exact not_lt.2 (le_of_lt h)), if_neg (not_lt.2 (le_of_lt h)), if_neg (ne_of_lt h)]
  · subst h; simp
  · rw [if_neg (ne_of_gt h), if_pos (by exact h), if_pos h]

/-- A form whose matrix is a product `M D Mᵀ`. -/
theorem form_ldl {B M : Mat F d d} {D : Fin d → F} (h : ∀ i j, B i j = ∑ k, M i k * D k * M j k) (x y : Row F d) :
    form B x y = ∑ k, D k * (∑ i, x i * M i k) * ∑ j, y j * M j k := by
  simp only [form, h, Finset.mul_sum, Finset.sum_mul]
  rw [Finset.sum_comm_cycle]
  refine Finset.sum_congr rfl fun k _ => ?_
  rw [Finset.sum_comm]
  exact Finset.sum_congr rfl fun i _ => Finset.sum_congr rfl fun j _ => by ring

/-- The rows of the inverse of `M`, scaled, for the pivots that are not zero. -/
theorem rows_white {B M N : Mat F d d} {D : Fin d → F} {sq : Fin d → F} {z : List (Fin d)} (hz : z.Nodup)
    (h : ∀ i j, B i j = ∑ k, M i k * D k * M j k) (hN : ∀ i j, ∑ k, N i k * M k j = if i = j then 1 else 0)
    (hin : ∀ k ∈ z, sq k * sq k * D k = 1) (hout : ∀ k, k ∉ z → D k = 0) (S : List (Row F d))
    (hS : S = z.map fun i j => N i j * sq i) :
    (∀ i j : Fin S.length, form B (S.get i) (S.get j) = if i = j then 1 else 0) ∧
    ∀ w : Row F d, form B (fun k => w k - ∑ i : Fin S.length, form B w (S.get i) * S.get i k)
      (fun k => w k - ∑ i : Fin S.length, form B w (S.get i) * S.get i k) = 0 := by
  have hlen : S.length = z.length := by rw [hS, List.length_map]
  have hget : ∀ i : Fin S.length, S.get i = fun j => N (z.get (i.cast hlen)) j * sq (z.get (i.cast hlen)) := by
    intro i
    subst hS
    simp
  have hrow : ∀ (i : Fin S.length) k, ∑ l, S.get i l * M l k = if z.get (i.cast hlen) = k then sq (z.get (i.cast hlen)) else 0 := by
    intro i k
    rw [hget]
    have : ∀ l, N (z.get (i.cast hlen)) l * sq (z.get (i.cast hlen)) * M l k =
        sq (z.get (i.cast hlen)) * (N (z.get (i.cast hlen)) l * M l k) := fun l => by ring
    simp only [this, ← Finset.mul_sum, hN]
    split <;> simp
  have hwS : ∀ w (i : Fin S.length), form B w (S.get i) = D (z.get (i.cast hlen)) * sq (z.get (i.cast hlen)) * ∑ l, w l * M l (z.get (i.cast hlen)) := by
    intro w i
    rw [form_ldl h]
    simp only [hrow, mul_ite, mul_zero, Finset.sum_ite_eq, Finset.mem_univ, if_true]
    ring
  constructor
  · intro i j
    rw [hwS, hrow]
    by_cases hij : i = j
    · subst hij
      rw [if_pos rfl, if_pos rfl]
      have := hin (z.get (i.cast hlen)) (List.get_mem _ _)
      linear_combination this
    · rw [if_neg hij, if_neg, mul_zero]
      intro h
      have := List.nodup_iff_injective_get.1 hz h
      exact hij (by simpa [Fin.ext_iff] using this)
  · intro w
    rw [form_ldl h]
    refine Finset.sum_eq_zero fun k _ => ?_
    by_cases hk : k ∈ z
    · have e : ∑ i, (w i - ∑ a : Fin S.length, form B w (S.get a) * S.get a i) * M i k = 0 := by
        have e1 : ∑ i, (w i - ∑ a : Fin S.length, form B w (S.get a) * S.get a i) * M i k =
            ∑ i, w i * M i k - ∑ a : Fin S.length, form B w (S.get a) * ∑ i, S.get a i * M i k := by
          simp only [sub_mul, Finset.sum_sub_distrib, Finset.sum_mul, Finset.mul_sum]
          congr 1
          rw [Finset.sum_comm]
          exact Finset.sum_congr rfl fun i _ => Finset.sum_congr rfl fun j _ => by ring
        rw [e1]
        obtain ⟨a, rfl⟩ := List.get_of_mem hk
        have e2 : ∑ b : Fin S.length, form B w (S.get b) * ∑ i, S.get b i * M i (z.get a) =
            form B w (S.get (a.cast hlen.symm)) * sq (z.get a) := by
          rw [Finset.sum_eq_single (a.cast hlen.symm)]
          · rw [hrow]; simp
          · intro b _ hb
            rw [hrow, if_neg, mul_zero]
            intro h
            have := List.nodup_iff_injective_get.1 hz h
            exact hb (by simpa [Fin.ext_iff] using this)
          · simp
        rw [e2, hwS]
        have := hin (z.get a) (List.get_mem _ _)
        simp only [Fin.cast_cast, Fin.cast_eq_self]
        linear_combination (-(∑ l, w l * M l (z.get a))) * this
      rw [e]; ring
    · rw [hout k hk]; ring

/-- The pivots of a semidefinite matrix are not negative. -/
theorem pivot_nonneg {B M N : Mat F d d} {D : Fin d → F} (hB : ∀ u, 0 ≤ form B u u)
    (h : ∀ i j, B i j = ∑ k, M i k * D k * M j k) (hN : ∀ i j, ∑ k, N i k * M k j = if i = j then 1 else 0) (k : Fin d) :
    0 ≤ D k := by
  have := hB (N k)
  rw [form_ldl h] at this
  simpa [hN] using this

theorem ldlCore_correct (E : Env F) (hE : Exact E) (L : Lapack F) {thr : F} (ht : 0 ≤ thr) {A B : Mat F d d}
    (hL : LapackOk L B) (hA : Sym A) (hB : Sym B) (hP : Psd B) (hs : PivSep E L thr B) {l : List (F × Row F d)} {df : Nat}
    (h : E.ldlCore L thr none d A B = .ok (l, df)) :
    RankList A B l ∧ l.length + df = d ∧ ∀ k, 1 ≤ k → E.ldlCore L thr (some (1, k)) d A B = .ok (l.take k, df) := by
  obtain ⟨s, hs1, hs2, hs3⟩ := hL.sytrf
  obtain ⟨p, hp, hp1, _⟩ := pivLoop_single (L.sytrf d B).2 s hs1 hs2 (List.finRange d) (finRange_lt d) ⟨false, id, fun _ => 0⟩ rfl
    fun _ _ => rfl
  obtain ⟨e1, e2, e3⟩ := swapLoop_spec p s hs1 (fun k => (hp1 k (by simp)).1) (fun k => (hp1 k (by simp)).2) (L.sytrf d B).1
  simp only [Env.ldlCore, hp] at h ⊢
  generalize hlu : scatter (swapLoop p (L.sytrf d B).1).2 (swapLoop p (L.sytrf d B).1).1 = lu at h e2 e3 ⊢
  rw [e1] at h ⊢
  set σ := perms s (List.finRange d) with hσ
  -- the renumbered matrix is the product
  have hB2 : ∀ i j, B (σ.symm i) (σ.symm j) = ∑ k, unitLower lu i k * lu k k * unitLower lu j k := by
    intro i j
    rw [hs3]
    refine Finset.sum_congr rfl fun k _ => ?_
    rw [factor_low _ s hs1 _ (finRange_lt d), factor_low _ s hs1 _ (finRange_lt d), ← hσ, Equiv.apply_symm_apply,
      Equiv.apply_symm_apply, ← e2, ← e2, e3]
  have hPsd2 : ∀ u : Row F d, 0 ≤ form (fun i j => B (σ.symm i) (σ.symm j)) u u := by
    intro u
    rw [← form_perm]
    exact hP _
  have hpos : ∀ k, 0 ≤ lu k k := pivot_nonneg (B := fun i j => B (σ.symm i) (σ.symm j)) (D := fun k => lu k k) hPsd2 hB2 (hL.trtri lu)
  have hA2 : (fun i => scatter (⇑σ) (scatter (⇑σ) A i) : Mat F d d) = fun i j => A (σ.symm i) (σ.symm j) := by
    funext i j
    rw [scatter_perm, scatter_perm]
  have hin : ∀ k ∈ dnz thr lu, E.sqrt (1 / |lu k k|) * E.sqrt (1 / |lu k k|) * lu k k = 1 := by
    intro k hk
    have hk : thr < |lu k k| := by simpa [dnz] using hk
    have h0 : lu k k ≠ 0 := by
      intro h0
      rw [h0, abs_zero] at hk
      exact absurd ht (not_le.2 hk)
    have := hs k
    rw [← e3 k] at this
    rw [(this.resolve_left h0).2, abs_of_nonneg (hpos k)]
    field_simp
  have hout : ∀ k, k ∉ dnz thr lu → lu k k = 0 := by
    intro k hk
    have hk : ¬ thr < |lu k k| := by simpa [dnz] using hk
    have := hs k
    rw [← e3 k] at this
    rcases this with h | h
    · exact h
    · exact absurd h.1 hk
  have hnd : (dnz thr lu).Nodup := (List.nodup_finRange d).filter _
  obtain ⟨w1, w2⟩ := rows_white (B := fun i j => B (σ.symm i) (σ.symm j)) (D := fun k => lu k k) (sq := fun k => E.sqrt (1 / |lu k k|))
    hnd hB2 (hL.trtri lu) hin hout (ldlRows E L thr lu) (by rw [← trilOne_eq]; rfl)
  have hle : (dnz thr lu).length ≤ d := by
    have := List.length_filter_le (fun i => decide (thr < |lu i i|)) (List.finRange d)
    simpa [dnz] using this
  simp only [Env.ldlTail, Env.std, hA2] at h ⊢
  rcases hm : E.eigh (ldlRows E L thr lu).length (colsForm (fun i j => A (σ.symm i) (σ.symm j)) (ldlRows E L thr lu)) with _ | m
  · rw [hm] at h; cases h
  · obtain ⟨hm1, hm2⟩ := hE.eigh _ _ m (colsForm_sym (fun _ _ => hA _ _) _) hm
    rw [hm] at h
    simp only [finish_none hm2] at h
    cases h
    refine ⟨?_, ?_, fun k hk => ?_⟩
    · have := (whiten_rows (A := fun i j => A (σ.symm i) (σ.symm j)) (B := fun i j => B (σ.symm i) (σ.symm j)) (fun _ _ => hA _ _)
        (fun _ _ => hB _ _) _ w1 w2 hm1 hm2).perm σ
      rw [List.map_map] at this
      simp only [gather_perm]
      exact this
    · rw [List.length_map, hm1.full]
      simp only [ldlRows, List.length_map]
      omega
    · simp only [finish_some hm2 hm1.full k hk, List.map_take]

/-- The matrix that is factorised: without the variables taken for blank. -/
def Core (thr : F) (B : Mat F (n + 1) (n + 1)) (P : ∀ d, Mat F d d → Prop) : Prop :=
  (blank thr B = none → P (n + 1) B) ∧ ∀ nz, blank thr B = some nz → P nz.length (sub nz B)

/-- **C346**: the solver by LDL decomposition solves the generalised problem for a singular `B`, with any interchanges of
rows that the decomposition makes: the vectors are orthonormal for `B`, diagonalise `A` and span everything up to the null
space of `B`, in ascending order of the eigenvalues, and there are `n + 1 - rank_deficit` of them; with the range `(1, k)` it
gives the first `k`. -/
theorem ldl_correct (E : Env F) (hE : Exact E) (L : Lapack F) {thr : F} (ht : 0 ≤ thr)
    {A B : Mat F (n + 1) (n + 1)} (hA : Sym A) (hB : Sym B) (hP : Psd B) 
    (hs : Core thr B fun _ M => LapackOk L M ∧ PivSep E L thr M) (hb : OnlyBlank thr B) {l : List (F × Row F (n + 1))} {df : Nat} (h : E.ldl L thr A B none = .ok (l, df)) :
    RankList A B l ∧ l.length + df = n + 1 ∧ ∀ k, 1 ≤ k → E.ldl L thr A B (some (1, k)) = .ok (l.take k, df) := by
  simp only [Env.ldl, withBlank] at h ⊢
  rcases hz : blank thr B with _ | nz
  · rw [hz] at h
    exact ldlCore_correct E hE L ht (hs.1 hz).1 hA hB hP (hs.1 hz).2 h
  · rw [hz] at h
    simp only at h ⊢
    have hn := blank_nodup hz
    rcases hc : E.ldlCore L thr none nz.length (sub nz A) (sub nz B) with e | ⟨l', df'⟩
    · rw [hc] at h; cases h
    · rw [hc] at h
      simp only at h
      cases h
      have hP2 : Psd (sub nz B) := fun u => by rw [← form_embed hn]; exact hP _
      obtain ⟨c1, c2, c3⟩ := ldlCore_correct E hE L ht (hs.2 nz hz).1 (sub_sym hA nz) (sub_sym hB nz) hP2 (hs.2 nz hz).2 hc
      have hlen : nz.length ≤ n + 1 := by
        have := hn.length_le_card
        simpa using this
      refine ⟨c1.embed hn hB (hb nz hz), ?_, fun k hk => ?_⟩
      · rw [List.length_map]; omega
      · rw [c3 k hk]
        simp only [List.map_take]

theorem ldl_solves (E : Env F) (hE : Exact E) (L : Lapack F) {thr : F} (ht : 0 ≤ thr)
    {A B : Mat F (n + 1) (n + 1)} (hA : Sym A) (hB : Sym B) (hP : Psd B)
    (hs : Core thr B fun _ M => LapackOk L M ∧ PivSep E L thr M)
    (hb : OnlyBlank thr B) {l : List (F × Row F (n + 1))} {df : Nat} (h : E.ldl L thr A B none = .ok (l, df)) :
    RankSolves (asSolver (E.ldl L thr)) A B (fun i => (l.get i).1) (fun i => (l.get i).2) ∧ l.length ≤ n + 1 := by
  obtain ⟨h1, h2, h3⟩ := ldl_correct E hE L ht hA hB hP hs hb h
  refine ⟨⟨h1.spectrum hA hB, ?_, fun k hk _ => ?_⟩, by omega⟩
  · simp only [asSolver, h, Prod.mk.eta, List.ofFn_get]
  · simp only [asSolver, h3 k hk, Prod.mk.eta, List.ofFn_get]

variable {incl : Bool} {out : Option Nat} {cs : List (Call F (n + 1))}

/-- **C346**: slow feature analysis with `rank_deficit_method='ldl'` on data of any rank: the outputs have mean zero and
variance one and are uncorrelated, their delta values are the attribute `d`, and they are the slowest ones. -/
theorem sfa_ldl (E : Env F) (hE : Exact E) (L : Lapack F) {thr : F} (ht : 0 ≤ thr) (h2 : ∀ c ∈ cs, 2 ≤ c.1.length)
    (hi : ∀ c ∈ cs, c.2.getD incl = true) (hn : 2 ≤ (samples incl cs).length) (hm : 2 ≤ (changes id cs).length)
    (ho : Valid out (n + 1)) (hs : Core thr (covOf (samples incl cs)) fun _ M => LapackOk L M ∧ PivSep E L thr M)
    (hb : OnlyBlank thr (covOf (samples incl cs)))
    {l : List (F × Row F (n + 1))} {df : Nat} (h : E.ldl L thr (moment cs) (covOf (samples incl cs)) none = .ok (l, df)) :
    ∃ s res, (trained incl out cs).stop (asSolver (E.ldl L thr)) = (.ok (), s) ∧ s.res = some res ∧ res.ds.Pairwise (· ≤ ·) ∧
      res.ds.length = min (out.getD (n + 1)) (n + 1 - df) ∧
      (∀ x, ∃ y, s.execute none x = .ok y ∧ y.length = res.ds.length) ∧
      (∀ (i j : Nat) (hi : i < res.ds.length) (_ : j < res.ds.length),
        mean ((samples incl cs).map (s.out i)) = 0 ∧
        cov false ((samples incl cs).map fun x => (s.out i x, s.out j x)) = (if i = j then 1 else 0) ∧
        delta (s.out i) cs = res.ds[i]) ∧
      ∀ (m : Nat), m ≤ res.ds.length → ∀ (w : Fin m → Row F (n + 1)),
        (∀ a b, cov false ((samples incl cs).map fun x => (dot x (w a), dot x (w b))) = if a = b then 1 else 0) →
        (res.ds.take m).sum ≤ ∑ a, delta (fun x => dot x (w a)) cs := by
  have hP : Psd (covOf (samples incl cs)) := covOf_nonneg _ hn
  obtain ⟨hsol, hle⟩ := ldl_solves E hE L ht (moment_comm cs) (covOf_comm _) hP hs hb h
  obtain ⟨_, hdf, _⟩ := ldl_correct E hE L ht (moment_comm cs) (covOf_comm _) hP hs hb h
  obtain ⟨s, res, e1, e2, e3, e4, e5, e6⟩ := sfa_rank_outputs incl out cs h2 hn hm _ hsol ho hle
  refine ⟨s, res, e1, e2, e3, ?_, e5, e6, fun m hm' w hw => ?_⟩
  · rw [e4]; congr 1; omega
  · exact sfa_rank_slowest incl out cs h2 hi hn hm _ hsol ho hle s res e1 e2 m hm' w hw

/-! ## What the threshold means -/

/-- The parameter `rank_threshold` is "a threshold to determine if an eigenvalue counts as zero": `rank_deficit` is not zero
if `B` has an eigenvalue below the threshold. -/
def ThresholdRight (E : Env F) (L : Lapack F) (thr : F) (A B : Mat F (n + 1) (n + 1)) : Prop :=
  ∀ l df, E.ldl L thr A B none = .ok (l, df) →
    ∀ (mu : F) (w : Row F (n + 1)), w ≠ 0 → (∀ k, ∑ j, B k j * w j = mu * w k) → mu < thr → df ≠ 0

/-! ## A case that meets the hypotheses -/

/-- Data of rank one for which the decomposition makes an interchange. -/
def ldlCalls : List (Call ℚ 2) := [([![1, 3], ![0, 0], ![-1, -3]], none)]

def ldlEnv : Env ℚ := { exEnv with sqrt := fun x => if x = 1 / 9 then 1 / 3 else 1 }

/-- What LAPACK returns for the matrices of the examples. -/
def ldlPack : Lapack ℚ where
  sytrf
    | 2, M => if M = fun i j => (![![1, 3], ![3, 9]] : Fin 2 → Fin 2 → ℚ) i j then
        (fun i j => (![![9, 3], ![1 / 3, 0]] : Fin 2 → Fin 2 → ℚ) i j, fun _ => 2)
      else (fun i j => (![![5, 2], ![2 / 5, 6 / 5]] : Fin 2 → Fin 2 → ℚ) i j, fun i => i.1 + 1)
    | _, M => (M, fun i => i.1 + 1)
  trtri _ M := fun i j => - M i j

theorem ldlExact : Exact ldlEnv := ⟨exExact.eigh, exExact.svd⟩

theorem ldlCov : covOf (samples true ldlCalls) = fun i j => (![![1, 3], ![3, 9]] : Fin 2 → Fin 2 → ℚ) i j := by decide +kernel

theorem ldlBlank : blank (1 / 2) (covOf (samples true ldlCalls)) = none := blank_correlated (by decide +kernel)

theorem ldlTri (M : Mat ℚ 2 2) (i j : Fin 2) :
    ∑ k, unitLower (ldlPack.trtri 2 M) i k * unitLower M k j = if i = j then 1 else 0 := by
  rw [Fin.sum_univ_two]
  fin_cases i <;> fin_cases j <;> simp [unitLower, ldlPack]

theorem ldlOk : LapackOk ldlPack (covOf (samples true ldlCalls)) := by
  refine ⟨⟨fun _ => 1, by decide, ?_, ?_⟩, ldlTri⟩
  · rw [ldlCov]; decide +kernel
  · rw [ldlCov]; decide +kernel

theorem ldlSep : PivSep ldlEnv ldlPack (1 / 2) (covOf (samples true ldlCalls)) := by
  rw [ldlCov]
  unfold PivSep
  decide +kernel

theorem ldlCore : Core (1 / 2) (covOf (samples true ldlCalls)) fun _ M => LapackOk ldlPack M ∧ PivSep ldlEnv ldlPack (1 / 2) M :=
  ⟨fun _ => ⟨ldlOk, ldlSep⟩, fun nz h => by rw [ldlBlank] at h; cases h⟩

theorem exLdl : ∃ l df, ldlEnv.ldl ldlPack (1 / 2) (moment ldlCalls) (covOf (samples true ldlCalls)) none = .ok (l, df) := by
  have : (match ldlEnv.ldl ldlPack (1 / 2) (moment ldlCalls) (covOf (samples true ldlCalls)) none with
    | .ok _ => true | .error _ => false) = true := by
    decide +kernel
  revert this
  rcases ldlEnv.ldl ldlPack (1 / 2) (moment ldlCalls) (covOf (samples true ldlCalls)) none with e | ⟨l, df⟩
  · intro h; cases h
  · intro _; exact ⟨l, df, rfl⟩

example : True := by
  obtain ⟨l, df, h⟩ := exLdl
  have := sfa_ldl (incl := true) (out := none) (cs := ldlCalls) ldlEnv ldlExact ldlPack (by norm_num : (0 : ℚ) ≤ 1 / 2) (by decide)
    (by decide) (by decide) (by decide) (fun _ h => by cases h) ldlCore (fun nz h => by rw [ldlBlank] at h; cases h) h
  trivial

/-- The deficit in the example is one. -/
example : (match ldlEnv.ldl ldlPack (1 / 2) (moment ldlCalls) (covOf (samples true ldlCalls)) none with
    | .ok (l, df) => some (l.map (·.2 0), l.map (·.2 1), df) | .error _ => none) = some ([0], [1 / 3], 1) := by decide +kernel

/-- A library for the following matrix. -/
def thrEnv : Env ℚ where
  eigh
    | 2, M => some [(M 0 0, ![1, 0]), (M 1 1, ![0, 1])]
    | _, _ => none
  svd _ _ := none
  sqrt x := x

/-- **C346, false.** The threshold is compared with the pivots of the decomposition, not with eigenvalues: the matrix with
rows (5, 2) and (2, 2) has the eigenvalue 1, its pivots are 5 and 6/5, and with the threshold 11/10 it passes for regular. -/
theorem ldl_threshold_violation : ∃ (A : Mat ℚ 2 2), LapackOk ldlPack (fun i j => (![![5, 2], ![2, 2]] : Fin 2 → Fin 2 → ℚ) i j) ∧
    ¬ ThresholdRight (n := 1) thrEnv ldlPack (11 / 10) A (fun i j => (![![5, 2], ![2, 2]] : Fin 2 → Fin 2 → ℚ) i j) := by
  refine ⟨fun _ _ => 0, ⟨⟨id, by decide, by decide +kernel, by decide +kernel⟩, ldlTri⟩, fun h => ?_⟩
  have hr : (match thrEnv.ldl (n := 1) ldlPack (11 / 10) (fun _ _ => 0) (fun i j => (![![5, 2], ![2, 2]] : Fin 2 → Fin 2 → ℚ) i j) none with
    | .ok (_, df) => some df | .error _ => none) = some 0 := by decide +kernel
  unfold ThresholdRight at h
  revert hr h
  rcases thrEnv.ldl (n := 1) ldlPack (11 / 10) (fun _ _ => 0) (fun i j => (![![5, 2], ![2, 2]] : Fin 2 → Fin 2 → ℚ) i j) none with e | ⟨l, df⟩
  · intro _ h; cases h
  · intro h hr
    simp only [Option.some.injEq] at hr
    refine h l df rfl 1 ![1, -2] (by decide +kernel) ?_ (by norm_num) hr
    decide +kernel

end Mdp.Symeig
