import Verif.Nodes.Sfa2
import Verif.Nodes.SfaOut
import Verif.Nodes.ExpansionProps

/-!
# Quadratic SFA (C117-C119)
-/

namespace Mdp.Sfa

open Mdp.Cov Mdp.Join Mdp.Pca Mdp.Expansion

variable {F : Type} [Field F] [LinearOrder F] {n : Nat}

/-! ## The expansion of degree 2 -/

theorem drop_finRange_eq (i : Fin n) : (List.finRange n).drop i = (List.finRange n).filter (fun j => decide (i ≤ j)) := by
  apply List.Perm.eq_of_pairwise (le := (· < ·))
  · intro a b _ _ h1 h2; exact absurd (lt_trans h1 h2) (lt_irrefl _)
  · exact (List.pairwise_lt_finRange n).sublist (List.drop_sublist _ _)
  · exact (List.pairwise_lt_finRange n).sublist List.filter_sublist
  · rw [List.perm_ext_iff_of_nodup ((List.nodup_finRange n).sublist (List.drop_sublist _ _))
      ((List.nodup_finRange n).sublist List.filter_sublist)]
    intro a
    simp [mem_drop_finRange]

theorem flatMap_single {α β : Type} (f : α → β) (l : List α) : (l.flatMap fun a => [f a]) = l.map f := by
  induction l with
  | nil => rfl
  | cons a l ih => simp [ih]

/-- The monomials of degree two in the order of the two loops of `get_quadratic_form`. -/
theorem monos_one : monos n 1 = ((loopPairs n).filter fun p => decide (p.1 ≤ p.2)).map fun p => [p.1, p.2] := by
  simp only [monos, loopPairs, List.filter_flatMap, List.map_flatMap, List.filter_map, List.map_map, Function.comp_def]
  congr 1
  funext i
  simp only [block]
  rw [drop_finRange_eq, flatMap_single, List.map_map]
  rfl

theorem upto_two : upto n 2 = ((List.finRange n).map fun i => [i]) ++
    ((loopPairs n).filter fun p => decide (p.1 ≤ p.2)).map fun p => [p.1, p.2] := by
  rw [upto_succ, upto_succ, ← monos_one, monos_zero]
  simp [upto]

theorem length_upto_two : (upto n 2).length = quadDim n := by
  have := length_upto (n := n) 2
  simp only [quadDim]
  have h2 : ((2 : Nat) : Int) = 2 := rfl
  rw [h2] at this
  omega

theorem expand2_list (x : Row F n) : List.ofFn (expand2 x) = (upto n 2).map (ev x) := by
  apply List.ext_getElem
  · simp [length_upto_two]
  · intro i h1 h2
    have h3 : polyExecute 2 x = some ((upto n 2).map (ev x)) := polyExecute_eq 1 x
    have h4 : i < (upto n 2).length := by simpa using h2
    simp [expand2, h3, List.getD_eq_getElem?_getD, List.getElem?_eq_getElem h4]

theorem zip_list {m : Nat} (a b : Fin m → F) : dot a b = (List.zipWith (· * ·) (List.ofFn a) (List.ofFn b)).sum := by
  rw [zipWith_ofFn, List.sum_ofFn]; rfl

theorem nodup_upto_two : (upto n 2).Nodup := by
  rw [upto_two, ← monos_zero, ← monos_one]
  refine List.Nodup.append (nodup_monos 0) (nodup_monos 1) ?_
  intro l h1 h2
  rw [mem_monos] at h1 h2
  omega

/-- The coefficients of a filter, as a function of the monomials. -/
theorem exists_coeff (w : Row F (quadDim n)) : ∃ g : List (Fin n) → F, List.ofFn w = (upto n 2).map g := by
  refine ⟨fun l => (List.ofFn w).getD ((upto n 2).idxOf l) 0, ?_⟩
  apply List.ext_getElem
  · simp [length_upto_two]
  · intro i h1 h2
    have h4 : i < (upto n 2).length := by simpa using h2
    simp only [List.getElem_map, nodup_upto_two.idxOf_getElem, List.getD_eq_getElem?_getD, List.getElem?_eq_getElem h1,
      Option.getD_some]

theorem exists_filter (g : List (Fin n) → F) : ∃ w : Row F (quadDim n), List.ofFn w = (upto n 2).map g := by
  refine ⟨fun k => ((upto n 2).map g).getD k.1 0, ?_⟩
  apply List.ext_getElem
  · simp [length_upto_two]
  · intro i h1 h2
    have h4 : i < (upto n 2).length := by simpa using h2
    simp [List.getD_eq_getElem?_getD, List.getElem?_eq_getElem h4]

theorem sum_loopPairs (f : Fin n → Fin n → F) :
    (((loopPairs n).filter fun p => decide (p.1 ≤ p.2)).map fun p => f p.1 p.2).sum =
      ∑ i, ∑ j, if i ≤ j then f i j else 0 := by
  have h1 : ∀ l : List (Fin n × Fin n), ((l.filter fun p => decide (p.1 ≤ p.2)).map fun p => f p.1 p.2).sum =
      (l.map fun p => if p.1 ≤ p.2 then f p.1 p.2 else 0).sum := by
    intro l
    induction l with
    | nil => rfl
    | cons a l ih =>
      by_cases h : a.1 ≤ a.2 <;> simp [List.filter_cons, h, ih]
  rw [h1, loopPairs, List.map_flatMap, List.flatMap_def, List.sum_flatten, List.map_map]
  rw [← List.ofFn_eq_map, List.sum_ofFn]
  refine Finset.sum_congr rfl fun i _ => ?_
  simp only [Function.comp, List.map_map]
  rw [← List.ofFn_eq_map, List.sum_ofFn]
  rfl

/-- A linear function of the expanded input as a quadratic polynomial. -/
theorem dot_expand2 (w : Row F (quadDim n)) (g : List (Fin n) → F) (h : List.ofFn w = (upto n 2).map g) (x : Row F n) :
    dot (expand2 x) w = ∑ i, x i * g [i] + ∑ i, ∑ j, if i ≤ j then x i * x j * g [i, j] else 0 := by
  rw [zip_list, h, expand2_list, List.zipWith_map, List.zipWith_self, upto_two, List.map_append, List.sum_append]
  congr 1
  · rw [List.map_map, ← List.ofFn_eq_map, List.sum_ofFn]
    refine Finset.sum_congr rfl fun i _ => ?_
    simp [ev]
  · rw [List.map_map, ← sum_loopPairs]
    congr 1
    refine List.map_congr_left fun p _ => ?_
    simp [ev]

/-! ## The loop of `get_quadratic_form` -/

/-- The matrix of the quadratic part. -/
def target (g : List (Fin n) → F) : Mat F n n :=
  fun i j => if i < j then g [i, j] else if j = i then 2 * g [i, j] else g [j, i]

theorem pairs_sorted : (loopPairs n).Pairwise fun p q => p.1 < q.1 ∨ p.1 = q.1 ∧ p.2 < q.2 := by
  simp only [loopPairs]
  rw [List.pairwise_flatMap]
  refine ⟨fun i _ => ?_, ?_⟩
  · rw [List.pairwise_map]
    exact (List.pairwise_lt_finRange n).imp fun h => Or.inr ⟨rfl, h⟩
  · refine (List.pairwise_lt_finRange n).imp fun {a b} h => ?_
    intro p hp q hq
    obtain ⟨j, _, rfl⟩ := List.mem_map.1 hp
    obtain ⟨k, _, rfl⟩ := List.mem_map.1 hq
    exact Or.inl h

theorem mem_pairs (p : Fin n × Fin n) : p ∈ loopPairs n := by
  simp [loopPairs]

theorem quad_loop (g : List (Fin n) → F) (rest done : List (Fin n × Fin n)) (hd : done ++ rest = loopPairs n) (h : Mat F n n)
    (hh : ∀ p ∈ done, h p.1 p.2 = target g p.1 p.2) :
    ∃ k, rest.foldlM (quadStep ((upto n 2).map g)) (h, n + (done.filter fun p => decide (p.1 ≤ p.2)).length) =
      some (target g, k) := by
  induction rest generalizing done h with
  | nil =>
    rw [List.append_nil] at hd
    have : h = target g := by
      funext i j
      exact hh (i, j) (hd ▸ mem_pairs _)
    exact ⟨_, by rw [this]; rfl⟩
  | cons p rest ih =>
    obtain ⟨i, j⟩ := p
    have hset : ∀ a, a = target g i j → ∀ q ∈ done ++ [(i, j)], setAt h i j a q.1 q.2 = target g q.1 q.2 := by
      intro a ha q hq
      simp only [setAt]
      split
      · rename_i hq'
        rw [hq'.1, hq'.2, ha]
      · rename_i hq'
        rcases List.mem_append.1 hq with hq | hq
        · exact hh q hq
        · simp only [List.mem_singleton] at hq
          subst hq
          exact absurd ⟨rfl, rfl⟩ hq'
    have hread : i ≤ j → ((upto n 2).map g)[n + (done.filter fun p => decide (p.1 ≤ p.2)).length]? = some (g [i, j]) := by
      intro hij
      rw [upto_two, ← hd, List.filter_append, List.filter_cons_of_pos (by simpa using hij)]
      simp [List.getElem?_append_right]
    have hlen : i ≤ j → n + ((done ++ [(i, j)]).filter fun p => decide (p.1 ≤ p.2)).length =
        n + (done.filter fun p => decide (p.1 ≤ p.2)).length + 1 := by
      intro hij
      rw [List.filter_append]
      simp [hij]; omega
    rw [List.foldlM_cons]
    have hd' : (done ++ [(i, j)]) ++ rest = loopPairs n := by rw [← hd]; simp
    rcases lt_trichotomy i j with hlt | heq | hgt
    · have h1 := ih (done ++ [(i, j)]) hd' (setAt h i j (g [i, j])) (hset _ (by simp [target, hlt]))
      rw [hlen hlt.le] at h1
      simp only [quadStep, if_pos hlt, hread hlt.le, Option.bind_eq_bind, Option.bind_some]
      exact h1
    · subst heq
      have h1 := ih (done ++ [(i, i)]) hd' (setAt h i i (2 * g [i, i])) (hset _ (by simp [target]))
      rw [hlen (le_refl i)] at h1
      simp only [quadStep, lt_irrefl, if_false, if_true, hread (le_refl i), Option.bind_eq_bind, Option.bind_some]
      exact h1
    · have hmem : (j, i) ∈ done := by
        have h1 : (j, i) ∈ done ++ (i, j) :: rest := hd ▸ mem_pairs _
        rcases List.mem_append.1 h1 with h1 | h1
        · exact h1
        · exfalso
          have hs := pairs_sorted (n := n)
          rw [← hd, List.pairwise_append] at hs
          rcases List.mem_cons.1 h1 with h1 | h1
          · have := congrArg Prod.fst h1
            simp only at this
            omega
          · have := (List.pairwise_cons.1 hs.2.1).1 _ h1
            simp only at this
            omega
      have hval := hh _ hmem
      simp only at hval
      have h1 := ih (done ++ [(i, j)]) hd' (setAt h i j (h j i)) (hset _ (by
        rw [hval]; simp [target, hgt, hgt.ne, not_lt.2 hgt.le]))
      have hl : ((done ++ [(i, j)]).filter fun p => decide (p.1 ≤ p.2)) = done.filter fun p => decide (p.1 ≤ p.2) := by
        rw [List.filter_append]; simp [hgt]
      rw [hl] at h1
      simp only [quadStep, if_neg (not_lt.2 hgt.le), if_neg hgt.ne, Option.bind_eq_bind, Option.bind_some]
      exact h1

theorem target_symm (g : List (Fin n) → F) (i j : Fin n) : target g i j = target g j i := by
  simp only [target]
  rcases lt_trichotomy i j with h | h | h
  · simp [h, not_lt.2 h.le, h.ne]
  · subst h; rfl
  · simp [h, not_lt.2 h.le, h.ne]

/-! ## Specification -/

/-- The quadratic function `1/2 x'Hx + f'x + c`. -/
def quadratic (H : Mat F n n) (f : Row F n) (c : F) (x : Row F n) : F :=
  1 / 2 * ∑ i, ∑ j, x i * H i j * x j + ∑ i, f i * x i + c

/-- A node on which `train` has been called, whether or not calls raised. -/
def trained2 (incl : Bool) (out : Option Nat) (cs : List (Call F n)) : St F (quadDim n) :=
  cs.foldl (fun s c => (train2 s c.1 c.2).2) { acc := some (sfaNew F _ incl), outDim := out }

/-- Output `i` of a node for an input, zero if there is none. -/
def out2 (s : St F (quadDim n)) (i : Nat) (x : Row F n) : F := match execute2 s none x with
  | .ok y => y.getD i 0
  | .error _ => 0

/-- The calls with all samples expanded. -/
def expanded (cs : List (Call F n)) : List (Call F (quadDim n)) := cs.map fun c => (c.1.map expand2, c.2)

/-! ## Proofs -/

variable [IsStrictOrderedRing F]

theorem half_target (g : List (Fin n) → F) (x : Row F n) :
    1 / 2 * ∑ i, ∑ j, x i * target g i j * x j = ∑ i, ∑ j, if i ≤ j then x i * x j * g [i, j] else 0 := by
  have h1 : ∀ i j, x i * target g i j * x j =
      (if i ≤ j then x i * x j * g [i, j] else 0) + (if j ≤ i then x j * x i * g [j, i] else 0) := by
    intro i j
    simp only [target]
    rcases lt_trichotomy i j with h | h | h
    · simp [h, not_lt.2 h.le, not_le.2 h, h.le]; ring
    · subst h; simp; ring
    · simp [not_lt.2 h.le, not_le.2 h, h.le, h.ne]; ring
  simp only [h1, Finset.sum_add_distrib]
  rw [Finset.sum_comm (f := fun i j => if j ≤ i then x j * x i * g [j, i] else 0)]
  ring

theorem getQ_eq (s : St F (quadDim n)) (r : Res F (quadDim n)) (hr : s.res = some r) (nr : Nat) (hn : nr < r.sf.length) :
    ∃ g : List (Fin n) → F, List.ofFn r.sf[nr] = (upto n 2).map g ∧
      getQuadraticForm s nr = some ⟨target g, List.ofFn fun i => g [i], - dot r.avg r.sf[nr]⟩ := by
  obtain ⟨g, hg⟩ := exists_coeff r.sf[nr]
  refine ⟨g, hg, ?_⟩
  obtain ⟨k, hk⟩ := quad_loop g (loopPairs n) [] rfl (fun _ _ => 0) (by simp)
  simp only [List.filter_nil, List.length_nil, Nat.add_zero] at hk
  simp only [getQuadraticForm, hr, Option.bind_eq_bind, Option.bind_some, List.getElem?_eq_getElem hn, hg, hk, QForm.new,
    target_symm, implies_true, if_true, dotL_eq]
  have hf : ((upto n 2).map g).take n = List.ofFn fun i => g [i] := by
    rw [upto_two, List.map_append, List.map_map, ← List.ofFn_eq_map, List.take_append_of_le_length (by simp)]
    simp [Function.comp_def]
  rw [hf]

theorem apply_eq (H : Mat F n n) (f : Row F n) (c : F) (x : Row F n) :
    (⟨H, List.ofFn f, c⟩ : QForm F n).apply x = some (quadratic H f c x) := by
  simp only [QForm.apply, List.length_ofFn, if_true, quadratic, zipWith_ofFn, List.sum_ofFn]
  rw [← List.ofFn_eq_map, List.sum_ofFn]
  congr 3
  · congr 1
    refine Finset.sum_congr rfl fun i _ => ?_
    rw [← List.ofFn_eq_map, List.sum_ofFn, Finset.sum_mul]
    exact Finset.sum_congr rfl fun j _ => by ring
  · exact Finset.sum_congr rfl fun j _ => by ring

/-- `QuadraticForm(H, f, c)` refuses exactly the matrices that are not symmetric; for the others `apply` gives `1/2 x'Hx + f'x + c`. -/
theorem quadform_new (H : Mat F n n) (f : Row F n) (c : F) :
    ((∃ i j, H i j ≠ H j i) → QForm.new H (List.ofFn f) c = none) ∧
    ((∀ i j, H i j = H j i) → ∃ q, QForm.new H (List.ofFn f) c = some q ∧
      ∀ x, q.apply x = some (1 / 2 * (∑ i, ∑ j, x i * H i j * x j) + ∑ i, f i * x i + c)) := by
  constructor
  · rintro ⟨i, j, h⟩
    exact if_neg fun hs => h (hs i j)
  · intro h
    exact ⟨_, if_pos h, fun x => apply_eq H f c x⟩

example : (∃ i j : Fin 2, (fun i j => if i < j then 1 else 0 : Mat ℚ 2 2) i j ≠ (fun i j => if i < j then 1 else 0 : Mat ℚ 2 2) j i) ∧
    ∀ i j : Fin 2, (fun i j => (i.val + j.val : ℚ) : Mat ℚ 2 2) i j = (fun i j => (i.val + j.val : ℚ) : Mat ℚ 2 2) j i :=
  ⟨⟨0, 1, by decide⟩, fun i j => add_comm _ _⟩


theorem stop2_bias {d : Nat} (solver : Solver F d) (s0 s : St F d) (r : Res F d) (h : stop2 solver s0 = (.ok (), s))
    (hr : s.res = some r) : r.bias = r.sf.map (dot r.avg) := by
  have key : ∀ (t : St F d) f, solve2 solver t f = (.ok (), s) → r.bias = r.sf.map (dot r.avg) := by
    intro t f ht
    simp only [solve2] at ht
    split at ht
    · cases ht
    · split at ht
      · cases ht
      · cases ht
        cases hr
        simp only [List.map_map, dotL_eq]
        rfl
  simp only [stop2] at h
  split at h
  · split at h
    · cases h
    · exact key _ _ h
  · split at h
    · cases h
    · split at h
      · cases h
      · exact key _ _ h

/-- **C117**: the quadratic form for output `nr` of a trained node is symmetric, and its value for an input is this output of
the node. -/
theorem sfa2_form (solver : Solver F (quadDim n)) (s0 s : St F (quadDim n)) (r : Res F (quadDim n))
    (h : stop2 solver s0 = (.ok (), s)) (hr : s.res = some r) (nr : Nat) (hn : nr < r.sf.length) :
    ∃ (H : Mat F n n) (f : Row F n) (c : F), getQuadraticForm s nr = some ⟨H, List.ofFn f, c⟩ ∧ (∀ i j, H i j = H j i) ∧
      ∀ x, (⟨H, List.ofFn f, c⟩ : QForm F n).apply x = some (quadratic H f c x) ∧
        ∃ y, execute2 s none x = .ok y ∧ y[nr]? = some (quadratic H f c x) := by
  obtain ⟨g, hg, he⟩ := getQ_eq s r hr nr hn
  refine ⟨_, _, _, he, target_symm g, fun x => ⟨apply_eq _ _ _ x, ?_⟩⟩
  have hb := stop2_bias solver s0 s r h hr
  simp only [execute2, St.execute, hr]
  refine ⟨_, rfl, ?_⟩
  simp only [hb, dotL_eq]
  rw [List.getElem?_zipWith, List.getElem?_map, List.getElem?_eq_getElem hn]
  simp only [Option.map_some, quadratic, half_target, dot_expand2 _ g hg, Option.some.injEq]
  have : ∑ i, g [i] * x i = ∑ i, x i * g [i] := Finset.sum_congr rfl fun i _ => mul_comm _ _
  rw [this]
  ring

/-- A number beyond the outputs is refused. -/
theorem sfa2_form_range (s : St F (quadDim n)) (r : Res F (quadDim n)) (hr : s.res = some r) (nr : Nat)
    (hn : r.sf.length ≤ nr) : getQuadraticForm s nr = none := by
  simp [getQuadraticForm, hr, hn]

theorem stop2_of_stop {d : Nat} (solver : Solver F d) (s0 s : St F d) (ho : Valid s0.outDim d)
    (h : s0.stop solver = (.ok (), s)) : stop2 solver s0 = (.ok (), s) := by
  have key : ∀ (t : St F d) f, Valid t.outDim d → t.solve solver f = (.ok (), s) → solve2 solver t f = (.ok (), s) := by
    intro t f hv ht
    obtain ⟨ta, tf, out, tr⟩ := t
    cases out with
    | none =>
      simp only [St.solve, setRange] at ht
      simp only [solve2, setRange2, Option.getD_none]
      split at ht <;> rename_i hl
      · cases ht
      · rw [hl]; simp only
        split at ht
        · cases ht
        · rename_i hn
          rw [if_neg hn]
          exact ht
    | some k =>
      simp only [St.solve, setRange, if_pos (hv k rfl).2] at ht
      simp only [solve2, setRange2, if_pos (hv k rfl).2, Option.getD_some]
      split at ht <;> rename_i hl
      · cases ht
      · rw [hl]; simp only
        exact ht
  simp only [St.stop] at h
  simp only [stop2]
  split at h <;> rename_i ha
  · simp only [ha]
    split at h <;> rename_i hf
    · cases h
    · simp only [hf]
      exact key _ _ ho h
  · simp only [ha]
    split at h <;> rename_i hf
    · cases h
    · simp only [hf]
      split at h <;> rename_i hf'
      · cases h
      · simp only [hf']
        exact key _ _ ho h

theorem trained2_eq (incl : Bool) (out : Option Nat) (cs : List (Call F n)) : trained2 incl out cs = trained incl out (expanded cs) := by
  simp only [trained2, trained, expanded, List.foldl_map]
  rfl

theorem samples_expanded (incl : Bool) (cs : List (Call F n)) : samples incl (expanded cs) = (samples incl cs).map expand2 := by
  simp only [samples, expanded, List.flatMap_map, List.map_flatMap]
  congr 1
  funext c
  split <;> simp [List.map_dropLast]

theorem changes_expanded {α : Type} [Sub α] (f : Row F (quadDim n) → α) (cs : List (Call F n)) :
    changes f (expanded cs) = changes (fun x => f (expand2 x)) cs := by
  simp only [changes, expanded, List.flatMap_map, List.map_map]
  rfl

theorem outDim_trained {d : Nat} (incl : Bool) (out : Option Nat) (cs : List (Call F d)) (h2 : ∀ c ∈ cs, 2 ≤ c.1.length) :
    (trained incl out cs).outDim = out := by
  rw [trained_eq incl out cs h2]

theorem expanded_hyps (cs : List (Call F n)) (h2 : ∀ c ∈ cs, 2 ≤ c.1.length) (hm : 2 ≤ (changes id cs).length) :
    (∀ c ∈ expanded cs, 2 ≤ c.1.length) ∧ 2 ≤ (changes id (expanded cs)).length := by
  have h2' : ∀ c ∈ expanded cs, 2 ≤ c.1.length := by
    intro c hc
    obtain ⟨c, hc', rfl⟩ := List.mem_map.1 hc
    simpa using h2 c hc'
  have hm' : 2 ≤ (changes id (expanded cs)).length := by
    have : (changes id (expanded cs)).length = (changes id cs).length := by
      have hd : ∀ (α β : Type) [Sub α] [Sub β] (f : Row F n → α) (g : Row F n → β) (l : List (Row F n)),
          (differences (l.map f)).length = (differences (l.map g)).length := by
        intro α β _ _ f g l
        induction l with
        | nil => rfl
        | cons a l ih => cases l with
          | nil => rfl
          | cons b l => simpa [differences] using ih
      rw [changes_expanded]
      simp only [changes, List.length_flatMap]
      congr 2
      funext c
      exact hd _ _ _ _ _
    omega
  exact ⟨h2', hm'⟩

/-- **C118**: the outputs of a quadratic SFA node for the training samples have mean zero, variance one and are
uncorrelated; their delta values are the attribute `d`, in ascending order. -/
theorem sfa2_outputs (incl : Bool) (out : Option Nat) (cs : List (Call F n)) (h2 : ∀ c ∈ cs, 2 ≤ c.1.length)
    (hn : 2 ≤ (samples incl cs).length) (hm : 2 ≤ (changes id cs).length) (solver : Solver F (quadDim n))
    {lam : Fin (quadDim n) → F} {v : Fin (quadDim n) → Row F (quadDim n)}
    (hs : Solves solver (moment (expanded cs)) (covOf ((samples incl cs).map expand2)) lam v) (ho : Valid out (quadDim n)) :
    ∃ s r, stop2 solver (trained2 incl out cs) = (.ok (), s) ∧ s.res = some r ∧ r.ds.Pairwise (· ≤ ·) ∧
      r.ds.length = out.getD (quadDim n) ∧
      (∀ x, ∃ y, execute2 s none x = .ok y ∧ y.length = r.ds.length) ∧
      ∀ (i j : Nat) (hi : i < r.ds.length) (_ : j < r.ds.length),
        mean ((samples incl cs).map (out2 s i)) = 0 ∧
        cov false ((samples incl cs).map fun x => (out2 s i x, out2 s j x)) = (if i = j then 1 else 0) ∧
        delta (out2 s i) cs = r.ds[i] := by
  rw [← samples_expanded] at hs
  obtain ⟨h2', hm'⟩ := expanded_hyps cs h2 hm
  obtain ⟨s, r, e1, e2, e3, e4, e5, e6⟩ := sfa_outputs incl out (expanded cs) h2' (by rw [samples_expanded]; simpa using hn)
    hm' solver hs ho
  refine ⟨s, r, ?_, e2, e3, e4, ?_, ?_⟩
  · rw [trained2_eq]
    exact stop2_of_stop solver _ _ (by rw [outDim_trained incl out _ h2']; exact ho) e1
  · intro x
    obtain ⟨y, h1, h3, -, -⟩ := e5 (expand2 x)
    exact ⟨y, h1, h3⟩
  · intro i j hi hj
    obtain ⟨a, b, c⟩ := e6 i j hi hj
    rw [samples_expanded, List.map_map] at a b
    refine ⟨a, b, ?_⟩
    rw [← c]
    simp only [delta, changes_expanded]
    rfl

/-- A quadratic function is a linear function of the expanded input, up to the constant. -/
theorem quadratic_linear (H : Mat F n n) (f : Row F n) (c : F) :
    ∃ w : Row F (quadDim n), ∀ x, quadratic H f c x = dot (expand2 x) w + c := by
  obtain ⟨w, hw⟩ := exists_filter (F := F) (n := n) fun l => match l with
    | [i] => f i
    | [i, j] => if i = j then H i i / 2 else (H i j + H j i) / 2
    | _ => 0
  refine ⟨w, fun x => ?_⟩
  rw [dot_expand2 w _ hw]
  simp only [quadratic]
  have h1 : ∑ i, f i * x i = ∑ i, x i * f i := Finset.sum_congr rfl fun i _ => mul_comm _ _
  rw [h1]
  have h2 : 1 / 2 * ∑ i, ∑ j, x i * H i j * x j =
      ∑ i, ∑ j, if i ≤ j then x i * x j * (if i = j then H i i / 2 else (H i j + H j i) / 2) else 0 := by
    have h3 : ∀ i j, x i * H i j * x j + x j * H j i * x i =
        2 * ((if i ≤ j then x i * x j * (if i = j then H i i / 2 else (H i j + H j i) / 2) else 0) +
        (if j ≤ i then x j * x i * (if j = i then H j j / 2 else (H j i + H i j) / 2) else 0)) := by
      intro i j
      rcases lt_trichotomy i j with h | h | h
      · simp [not_le.2 h, h.le, h.ne]; ring
      · subst h; simp; ring
      · simp [not_le.2 h, h.le, h.ne]; ring
    have h4 : ∑ i, ∑ j, x i * H i j * x j + ∑ i, ∑ j, x i * H i j * x j =
        2 * ((∑ i, ∑ j, if i ≤ j then x i * x j * (if i = j then H i i / 2 else (H i j + H j i) / 2) else 0) +
        (∑ i, ∑ j, if i ≤ j then x i * x j * (if i = j then H i i / 2 else (H i j + H j i) / 2) else 0)) := by
      conv_lhs => arg 2; rw [Finset.sum_comm]
      conv_rhs => arg 2; arg 2; rw [Finset.sum_comm]
      rw [← Finset.sum_add_distrib, ← Finset.sum_add_distrib, Finset.mul_sum]
      refine Finset.sum_congr rfl fun i _ => ?_
      rw [← Finset.sum_add_distrib, ← Finset.sum_add_distrib, Finset.mul_sum]
      exact Finset.sum_congr rfl fun j _ => h3 i j
    linarith
  rw [h2]
  ring

theorem cov_add_const (l : List (Row F n)) (hl : l ≠ []) (f g : Row F n → F) (a b : F) :
    cov false (l.map fun x => (f x + a, g x + b)) = cov false (l.map fun x => (f x, g x)) := by
  have hmean : ∀ (f : Row F n → F) (a : F), mean (l.map fun x => f x + a) = mean (l.map f) + a := by
    intro f a
    have hne : (l.length : F) ≠ 0 := by
      simpa using hl
    have : (l.map fun x => f x + a).sum = (l.map f).sum + l.length * a := by
      clear hl hne
      induction l with
      | nil => simp
      | cons x l ih => simp only [List.map_cons, List.sum_cons, ih, List.length_cons]; push_cast; ring
    simp only [mean, this, List.length_map]
    field_simp
  simp only [cov, codev, Bool.false_eq_true, if_false, List.map_map, Function.comp_def, List.length_map, hmean,
    add_sub_add_right_eq_sub]

/-- **C118**: no `m` quadratic functions of the input that have variance one and are uncorrelated change more slowly than the
first `m` outputs. -/
theorem sfa2_slowest (incl : Bool) (out : Option Nat) (cs : List (Call F n)) (h2 : ∀ c ∈ cs, 2 ≤ c.1.length)
    (hn : 2 ≤ (samples incl cs).length) (hm : 2 ≤ (changes id cs).length) (solver : Solver F (quadDim n))
    {lam : Fin (quadDim n) → F} {v : Fin (quadDim n) → Row F (quadDim n)}
    (hs : Solves solver (moment (expanded cs)) (covOf ((samples incl cs).map expand2)) lam v) (ho : Valid out (quadDim n))
    (s : St F (quadDim n)) (r : Res F (quadDim n)) (h : stop2 solver (trained2 incl out cs) = (.ok (), s))
    (hr : s.res = some r) (m : Nat) (hk : m ≤ r.ds.length) (H : Fin m → Mat F n n) (f : Fin m → Row F n) (c : Fin m → F)
    (hw : ∀ a b, cov false ((samples incl cs).map fun x =>
      (quadratic (H a) (f a) (c a) x, quadratic (H b) (f b) (c b) x)) = if a = b then 1 else 0) :
    (r.ds.take m).sum ≤ ∑ a, delta (quadratic (H a) (f a) (c a)) cs := by
  have hne : samples incl cs ≠ [] := by intro h; rw [h] at hn; simp at hn
  choose w hwq using fun a => quadratic_linear (H a) (f a) (c a)
  obtain ⟨h2', hm'⟩ := expanded_hyps cs h2 hm
  rw [← samples_expanded] at hs
  have hn' : 2 ≤ (samples incl (expanded cs)).length := by rw [samples_expanded]; simpa using hn
  obtain ⟨s', r', e1, e2, -⟩ := sfa_outputs incl out (expanded cs) h2' hn' hm' solver hs ho
  have e3 := stop2_of_stop solver _ _ (by rw [outDim_trained incl out _ h2']; exact ho) e1
  rw [← trained2_eq, h] at e3
  cases e3
  have e4 := sfa_slowest incl out (expanded cs) h2' hn' hm' solver hs ho s r e1 hr m hk w (by
    intro a b
    rw [← hw a b, samples_expanded, List.map_map]
    simp only [hwq]
    rw [cov_add_const _ hne]
    rfl)
  refine le_trans e4 (le_of_eq (Finset.sum_congr rfl fun a _ => ?_))
  have h5 : delta (quadratic (H a) (f a) (c a)) cs = delta (fun x => dot x (w a) - (- c a)) (expanded cs) := by
    simp only [delta, changes_expanded, sub_neg_eq_add]
    have : quadratic (H a) (f a) (c a) = fun x => dot (expand2 x) (w a) + c a := funext (hwq a)
    rw [this]
  have h6 := delta_dot (expanded cs) (w a) 0
  simp only [sub_zero] at h6
  rw [h5, delta_dot, h6]

/-- **C119**: asked for more outputs than there are monomials, a quadratic SFA node gives fewer outputs than its
output dimension. -/
theorem sfa2_output_dim_false (incl : Bool) (k : Nat) (hk : quadDim n < k) (cs : List (Call F n))
    (h2 : ∀ c ∈ cs, 2 ≤ c.1.length) (hn : 2 ≤ (samples incl cs).length) (hm : 2 ≤ (changes id cs).length)
    (solver : Solver F (quadDim n)) {lam : Fin (quadDim n) → F} {v : Fin (quadDim n) → Row F (quadDim n)}
    (hs : Solves solver (moment (expanded cs)) (covOf ((samples incl cs).map expand2)) lam v) :
    ∃ s, stop2 solver (trained2 incl (some k) cs) = (.ok (), s) ∧ s.outDim = some k ∧
      ∀ x, ∃ y, execute2 s none x = .ok y ∧ y.length = quadDim n ∧ y.length < k := by
  obtain ⟨h2', hm'⟩ := expanded_hyps cs h2 hm
  rw [← samples_expanded] at hs
  have hn' : 2 ≤ (samples incl (expanded cs)).length := by rw [samples_expanded]; simpa using hn
  obtain ⟨s, r, e1, e2, -, e4, e5, -⟩ := sfa_outputs incl none (expanded cs) h2' hn' hm' solver hs (by intro k h; cases h)
  have e6 : stop2 solver (trained incl (some k) (expanded cs)) = (.ok (), { s with outDim := some k }) := by
    rw [trained_eq incl none _ h2'] at e1
    rw [trained_eq incl (some k) _ h2']
    simp only [St.stop] at e1
    simp only [stop2]
    split at e1 <;> rename_i hf
    · cases e1
    · simp only [hf]
      split at e1 <;> rename_i hf'
      · cases e1
      · simp only [hf']
        simp only [St.solve, setRange] at e1
        simp only [solve2, setRange2, if_neg (not_le.2 hk), Option.getD_some]
        split at e1 <;> rename_i hl
        · cases e1
        · rw [hl]; simp only
          split at e1
          · cases e1
          · rename_i hn
            rw [if_neg hn]
            cases e1
            rfl
  refine ⟨_, by rw [trained2_eq]; exact e6, rfl, fun x => ?_⟩
  obtain ⟨y, h1, h3, -, -⟩ := e5 (expand2 x)
  rw [e4, Option.getD_none] at h3
  exact ⟨y, h1, h3, h3 ▸ hk⟩

/-! ## A concrete case: one input, its expansion is the input and its square -/

def ex2Calls : List (Call ℚ 1) := [([![1], ![-1], ![1], ![1], ![-1], ![-1], ![-1], ![0], ![1]], none)]

def ex2Lam : Fin (quadDim 1) → ℚ := fun i => if i.1 = 0 then 2 else 18 / 7
def ex2Vec : Fin (quadDim 1) → Row ℚ (quadDim 1) := fun i k => if i = k then (if i.1 = 0 then 1 else 3) else 0

/-- A solver that knows the answer. -/
def ex2Solver : Solver ℚ (quadDim 1) := fun _ _ rng => match rng with
  | none => some (List.ofFn fun i => (ex2Lam i, ex2Vec i))
  | some (_, k) => some ((List.ofFn fun i => (ex2Lam i, ex2Vec i)).take k)

theorem ex2Solves : Solves ex2Solver (moment (expanded ex2Calls)) (covOf ((samples true ex2Calls).map expand2)) ex2Lam ex2Vec :=
  ⟨⟨by decide +kernel, by decide +kernel, by decide +kernel⟩, rfl, fun _ _ _ => rfl⟩

example := sfa2_outputs true none ex2Calls (by decide) (by decide) (by decide) ex2Solver ex2Solves (by intro k h; cases h)
example := sfa2_slowest true none ex2Calls (by decide) (by decide) (by decide) ex2Solver ex2Solves (by intro k h; cases h)
example := sfa2_output_dim_false true 3 (by decide +kernel) ex2Calls (by decide) (by decide) (by decide) ex2Solver ex2Solves

/-- The second output is `3 (x^2 - 8/9)`. -/
example : ((getQuadraticForm ((stop2 ex2Solver (trained2 true none ex2Calls)).2) 1).map fun q => (q.H 0 0, q.f, q.c)) =
    some (6, [0], - 8 / 3) := by decide +kernel

end Mdp.Sfa
