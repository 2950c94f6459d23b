import Verif.Num.Cov
import Mathlib.Algebra.CharZero.Defs
import Mathlib.Algebra.Field.Rat
import Mathlib.Algebra.BigOperators.Fin
import Mathlib.Tactic.Ring
import Mathlib.Tactic.FieldSimp
import Mathlib.Tactic.LinearCombination
import Mathlib.Tactic.NormNum
import Mathlib.Data.Fin.VecNotation

/-!
# What the covariance accumulators compute (C45, C46, C77, C78)
-/

namespace Mdp.Cov

variable {F : Type} [Field F] {d e : Nat}

/-! ## Specification: sample mean and sample covariance of paired observations -/

/-- Mean of a list of numbers. -/
def mean (l : List F) : F := l.sum / l.length

/-- Sum of the products of the deviations from the means. -/
def codev (l : List (F × F)) : F :=
  (l.map fun p => (p.1 - mean (l.map (·.1))) * (p.2 - mean (l.map (·.2)))).sum

/-- The pairs of component `i` of the first and component `j` of the second vector. -/
def comp (l : List (Row F d × Row F e)) (i : Fin d) (j : Fin e) : List (F × F) := l.map fun p => (p.1 i, p.2 j)

/-- Sample covariance of `n` pairs, normalised by `n` (`bias`) or `n - 1`. -/
def cov (bias : Bool) (l : List (F × F)) : F :=
  if bias then codev l / l.length else codev l / (l.length - 1)

/-- The pairs `(x(t), x(t + dt))` with both times inside the chunk. -/
def delayed {α : Type} (dt : Nat) (x : List α) : List (α × α) := x.zip (x.drop dt)

theorem delayed_get {α : Type} (dt : Nat) (x : List α) (t : Nat) (p : α × α) :
    (delayed dt x)[t]? = some p ↔ x[t]? = some p.1 ∧ x[t + dt]? = some p.2 := by
  unfold delayed
  rw [List.getElem?_zip_eq_some, List.getElem?_drop, Nat.add_comm]

/-! ## Algebra -/

theorem sum_prod_dev (l : List (F × F)) (m n : F) :
    (l.map fun p => (p.1 - m) * (p.2 - n)).sum
      = (l.map fun p => p.1 * p.2).sum - m * (l.map (·.2)).sum - n * (l.map (·.1)).sum + l.length * m * n := by
  induction l with
  | nil => simp
  | cons p l ih => simp only [List.map_cons, List.sum_cons, List.length_cons, ih]; push_cast; ring

theorem codev_eq [CharZero F] (l : List (F × F)) (h : l ≠ []) :
    codev l = (l.map fun p => p.1 * p.2).sum - (l.map (·.1)).sum * (l.map (·.2)).sum / l.length := by
  have hn : (l.length : F) ≠ 0 := by simpa using h
  unfold codev
  rw [sum_prod_dev]
  simp only [mean, List.length_map]
  field_simp
  ring

theorem multT_append (x x' : List (Row F d)) (y y' : List (Row F e)) (h : x.length = y.length) :
    multT (x ++ x') (y ++ y') = multT x y + multT x' y' := by
  funext i j
  simp [multT, List.zipWith_append h]

theorem colSum_append (x y : List (Row F d)) : colSum (x ++ y) = colSum x + colSum y := by
  funext i; simp [colSum]

@[simp] theorem multT_nil : multT ([] : List (Row F d)) ([] : List (Row F e)) = 0 := by funext i j; simp [multT]
@[simp] theorem colSum_nil : colSum ([] : List (Row F d)) = 0 := by funext i; simp [colSum]

/-- Second moments of a list of pairs. -/
def mom (l : List (Row F d × Row F e)) : Mat F d e := fun i j => (l.map fun p => p.1 i * p.2 j).sum

theorem mom_append (l l' : List (Row F d × Row F e)) : mom (l ++ l') = mom l + mom l' := by
  funext i j; simp [mom]

@[simp] theorem mom_nil : mom ([] : List (Row F d × Row F e)) = 0 := by funext i j; simp [mom]

theorem multT_eq_mom (x : List (Row F d)) (y : List (Row F e)) : multT x y = mom (x.zip y) := by
  funext i j
  unfold multT mom
  rw [List.zip, List.map_zipWith]

theorem codev_comp [CharZero F] (l : List (Row F d × Row F e)) (h : l ≠ []) (i : Fin d) (j : Fin e) :
    codev (comp l i j) = mom l i j - colSum (l.map (·.1)) i * colSum (l.map (·.2)) j / l.length := by
  rw [codev_eq _ (by simpa [comp] using h)]
  simp [comp, mom, colSum, Function.comp_def]

/-! ## CovarianceMatrix (C45) -/

theorem CovSt.run_acc (chunks : List (List (Row F d))) (s : CovSt F d) (h : chunks ≠ [] ∨ s.acc ≠ none) :
    (chunks.foldl CovSt.update s).acc
      = some ((s.acc.getD (0, 0)).1 + multT chunks.flatten chunks.flatten,
          (s.acc.getD (0, 0)).2 + colSum chunks.flatten)
    ∧ (chunks.foldl CovSt.update s).tlen = s.tlen + chunks.flatten.length
    ∧ (chunks.foldl CovSt.update s).bias = s.bias := by
  induction chunks generalizing s with
  | nil =>
    rcases s with ⟨_ | a, t, b⟩
    · simp at h
    · simp
  | cons c cs ih =>
    rw [List.foldl_cons]
    obtain ⟨h1, h2, h3⟩ := ih (s.update c) (Or.inr (by simp [CovSt.update]))
    refine ⟨?_, ?_, ?_⟩
    · rw [h1]
      simp only [CovSt.update, Option.getD_some, List.flatten_cons, multT_append _ _ _ _ rfl, colSum_append, add_assoc]
    · rw [h2]; simp [CovSt.update, Nat.add_assoc]
    · rw [h3]; rfl

theorem cast_sub_one_ne [CharZero F] {n : Nat} (h : 2 ≤ n) : (n : F) - 1 ≠ 0 := by
  have : ((n : F) - 1) = ((n - 1 : Nat) : F) := by rw [Nat.cast_sub (by omega)]; simp
  rw [this]; simp; omega

/-- **C45**: whatever the chunking, after any number of updates `fix` returns the sample covariance matrix, the
mean and the number of all rows given, and the object is as new. -/
theorem covariance_correct [CharZero F] (bias : Bool) (chunks : List (List (Row F d)))
    (hn : (if bias then 1 else 2) ≤ chunks.flatten.length) :
    ∃ c avg, (chunks.foldl CovSt.update (CovSt.new F d bias)).fix true
        = .ok ((c, avg, chunks.flatten.length), CovSt.new F d bias)
      ∧ (∀ i j, c i j = cov bias (chunks.flatten.map fun x => (x i, x j)))
      ∧ (∀ i, avg i = mean (chunks.flatten.map fun x => x i)) := by
  have hne : chunks ≠ [] := by rintro rfl; cases bias <;> simp at hn
  obtain ⟨h1, h2, h3⟩ := CovSt.run_acc chunks (CovSt.new F d bias) (Or.inl hne)
  generalize chunks.foldl CovSt.update (CovSt.new F d bias) = s at h1 h2 h3
  obtain ⟨sa, st, sb⟩ := s
  simp only [CovSt.new, Option.getD_none, zero_add] at h1 h2 h3
  subst h1; subst h2; subst h3
  generalize hx : chunks.flatten = x at *
  have hx0 : x ≠ [] := by rintro rfl; cases sb <;> simp at hn
  have hn0 : (x.length : F) ≠ 0 := by simpa using hx0
  refine ⟨_, _, rfl, ?_, ?_⟩
  · intro i j
    have hc := codev_comp (x.zip x) (by cases x <;> simp_all) i j
    have hz : comp (x.zip x) i j = x.map fun a => (a i, a j) := by
      clear hx hx0 hn0 hn hc
      induction x with
      | nil => rfl
      | cons a l ih => simp only [comp, List.zip_cons_cons, List.map_cons] at ih ⊢; rw [ih]
    rw [hz] at hc
    have hz1 : (x.zip x).map (·.1) = x := List.map_fst_zip (by simp)
    have hz2 : (x.zip x).map (·.2) = x := List.map_snd_zip (by simp)
    rw [hz1, hz2, ← multT_eq_mom, List.length_zip, Nat.min_self] at hc
    unfold cov
    rw [hc]
    cases sb
    · have := cast_sub_one_ne (F := F) (n := x.length) (by simpa using hn)
      simp [divM, outer]
      field_simp
    · simp [divM, outer]
      field_simp
  · intro i
    simp [divR, colSum, mean]

/-- Three chunks, one of them empty. -/
example : (2 : Nat) ≤ ([[![1, 2]], [], [![3, 4], ![5, 9]]] : List (List (Row ℚ 2))).flatten.length
    ∧ cov false (([[![1, 2]], [], [![3, 4], ![5, 9]]] : List (List (Row ℚ 2))).flatten.map fun x => (x 0, x 1)) = 7 := by
  constructor
  · decide
  · simp [cov, codev, mean]; norm_num

/-- **C45**: without centring, `fix` returns the second moments. -/
theorem second_moments (bias : Bool) (chunks : List (List (Row F d))) (hne : chunks ≠ []) :
    ∃ c avg, (chunks.foldl CovSt.update (CovSt.new F d bias)).fix false
        = .ok ((c, avg, chunks.flatten.length), CovSt.new F d bias)
      ∧ (∀ i j, c i j = (chunks.flatten.map fun x => x i * x j).sum
          / (if bias then (chunks.flatten.length : F) else (chunks.flatten.length : F) - 1))
      ∧ (∀ i, avg i = mean (chunks.flatten.map fun x => x i)) := by
  obtain ⟨h1, h2, h3⟩ := CovSt.run_acc chunks (CovSt.new F d bias) (Or.inl hne)
  generalize chunks.foldl CovSt.update (CovSt.new F d bias) = s at h1 h2 h3
  obtain ⟨sa, st, sb⟩ := s
  simp only [CovSt.new, Option.getD_none, zero_add] at h1 h2 h3
  subst h1; subst h2; subst h3
  generalize chunks.flatten = x at *
  refine ⟨_, _, rfl, ?_, ?_⟩
  · intro i j
    cases sb <;> simp [divM, multT, List.zipWith_self]
  · intro i
    simp [divR, colSum, mean]

/-- Sample covariance does not depend on the order of the two variables. -/
theorem cov_swap [CharZero F] (bias : Bool) (l : List (F × F)) : cov bias l = cov bias (l.map fun p => (p.2, p.1)) := by
  unfold cov codev
  simp only [List.map_map, Function.comp_def, List.length_map]
  congr <;> (funext p; ring)

/-- **C45**: the matrix returned is symmetric, whatever was accumulated before. -/
theorem covariance_symmetric (s s' : CovSt F d) (center : Bool) (c : Mat F d d) (avg : Row F d) (n : Nat)
    (hs : ∃ chunks : List (List (Row F d)), s = chunks.foldl CovSt.update (CovSt.new F d s.bias))
    (h : s.fix center = .ok ((c, avg, n), s')) (i j : Fin d) : c i j = c j i := by
  obtain ⟨chunks, hs⟩ := hs
  by_cases hne : chunks = []
  · subst hne
    rw [hs] at h
    simp [CovSt.new, CovSt.fix] at h
  obtain ⟨h1, -, -⟩ := CovSt.run_acc chunks (CovSt.new F d s.bias) (Or.inl hne)
  rw [← hs] at h1
  simp only [CovSt.fix, h1, CovSt.new, Option.getD_none, zero_add] at h
  injection h with h
  have hc := congrArg (·.1.1) h
  dsimp only at hc
  have hm : ∀ i j, multT chunks.flatten chunks.flatten i j = multT chunks.flatten chunks.flatten j i := by
    intro i j; simp [multT, List.zipWith_self, mul_comm]
  rw [← hc]
  cases center <;> cases s.bias <;> simp [divM, outer, hm i j, mul_comm]

/-- **C45**: `fix` leaves the object as a new one (so the next data set starts from zero); it fails exactly
when nothing was given since the last `fix`. -/
theorem covariance_resets (s : CovSt F d) (center : Bool) :
    match s.fix center with
    | .ok (_, s') => s' = CovSt.new F d s.bias ∧ s.acc ≠ none
    | .error _ => s.acc = none := by
  rcases s with ⟨_ | ⟨c, a⟩, t, b⟩ <;> simp [CovSt.fix, CovSt.new]

/-! ## DelayCovarianceMatrix (C46) -/

theorem delayed_length {α : Type} (dt : Nat) (x : List α) : (delayed dt x).length = x.length - dt := by
  simp [delayed]

theorem delayed_fst {α : Type} (dt : Nat) (x : List α) : (delayed dt x).map (·.1) = x.take (x.length - dt) := by
  apply List.ext_getElem
  · simp [delayed_length]
  · intro n h1 h2; simp [delayed]

theorem delayed_snd {α : Type} (dt : Nat) (x : List α) : (delayed dt x).map (·.2) = x.drop dt := by
  unfold delayed
  rw [List.map_snd_zip (by simp)]

theorem colSum_sub_drop (x : List (Row F d)) (n : Nat) : colSum x - colSum (x.drop n) = colSum (x.take n) := by
  conv_lhs => rw [← List.take_append_drop n x]
  rw [colSum_append, List.take_append_drop, add_sub_cancel_right]

theorem colSum_sub_take (x : List (Row F d)) (n : Nat) : colSum x - colSum (x.take n) = colSum (x.drop n) := by
  conv_lhs => rw [← List.take_append_drop n x]
  rw [colSum_append, List.take_append_drop, add_sub_cancel_left]

/-- What one accepted chunk adds. -/
theorem DelaySt.update_eq (s : DelaySt F d) (x : List (Row F d)) (h : s.dt + 1 ≤ x.length) :
    s.update x = (.ok (), ⟨some ((s.acc.getD 0).1 + mom (delayed s.dt x),
      (s.acc.getD 0).2.1 + colSum ((delayed s.dt x).map (·.1)),
      (s.acc.getD 0).2.2 + colSum ((delayed s.dt x).map (·.2))), s.tlen + (delayed s.dt x).length, s.dt, s.bias⟩) := by
  unfold DelaySt.update
  have hz : (x.take (x.length - s.dt)).zip ((x.take x.length).drop s.dt) = delayed s.dt x := by
    apply List.ext_getElem
    · simp [delayed]
    · intro n h1 h2; simp [delayed]
  have : ¬ x.length < s.dt + 1 := by omega
  simp only [this, if_false]
  rw [colSum_sub_drop, colSum_sub_take, multT_eq_mom, hz, delayed_fst, delayed_snd, delayed_length]
  rfl

/-- Give a list of chunks; the updates that raise are caught by the caller. -/
def DelaySt.run (s : DelaySt F d) (chunks : List (List (Row F d))) : DelaySt F d :=
  chunks.foldl (fun s x => (s.update x).2) s

theorem DelaySt.run_eq (chunks : List (List (Row F d))) (s : DelaySt F d) (h : ∀ x ∈ chunks, s.dt + 1 ≤ x.length)
    (hne : chunks ≠ [] ∨ s.acc ≠ none) :
    s.run chunks = ⟨some ((s.acc.getD 0).1 + mom (chunks.flatMap (delayed s.dt)),
      (s.acc.getD 0).2.1 + colSum ((chunks.flatMap (delayed s.dt)).map (·.1)),
      (s.acc.getD 0).2.2 + colSum ((chunks.flatMap (delayed s.dt)).map (·.2))),
      s.tlen + (chunks.flatMap (delayed s.dt)).length, s.dt, s.bias⟩ := by
  induction chunks generalizing s with
  | nil =>
    rcases s with ⟨_ | a, t, b⟩
    · simp at hne
    · simp [DelaySt.run]
  | cons c cs ih =>
    rw [DelaySt.run, List.foldl_cons, ← DelaySt.run, DelaySt.update_eq s c (h c (by simp)), ih]
    · simp only [Option.getD_some, List.flatMap_cons, mom_append, List.map_append, colSum_append, add_assoc,
        List.length_append]
    · intro x hx; exact h x (by simp [hx])
    · simp

/-- **C46**: `update` refuses exactly the chunks with fewer than `dt + 1` rows; such a chunk changes nothing
that `fix` returns after a later chunk. -/
theorem delay_rejects_short (s : DelaySt F d) (x : List (Row F d)) :
    (s.update x).1 = (if x.length < s.dt + 1 then .error .short else .ok ())
    ∧ (x.length < s.dt + 1 → ∀ y, s.dt + 1 ≤ y.length → ((s.update x).2.update y) = s.update y) := by
  constructor
  · by_cases hx : x.length < s.dt + 1 <;> simp only [DelaySt.update, hx, if_true, if_false]
  · intro hx y hy
    have hu : (s.update x).2 = { s with acc := some (s.acc.getD (0, 0, 0)) } := by
      unfold DelaySt.update; simp [hx]
    rw [hu, DelaySt.update_eq s y hy, DelaySt.update_eq { s with acc := some (s.acc.getD (0, 0, 0)) } y hy]
    rfl

/-- **C46**: after any chunks of at least `dt + 1` rows, `fix` returns the sample covariance of the pairs
`(x(t), x(t+dt))` whose times lie in one chunk, the two means and the number of pairs; the object is as new. -/
theorem delay_covariance_correct [CharZero F] (dt : Nat) (bias : Bool) (chunks : List (List (Row F d)))
    (hc : ∀ x ∈ chunks, dt + 1 ≤ x.length) (pairs : List (Row F d × Row F d))
    (hp : pairs = chunks.flatMap (delayed dt)) (hn : (if bias then 1 else 2) ≤ pairs.length) :
    ∃ c avg avgDt, ((DelaySt.new F d dt bias).run chunks).fix
        = .ok ((c, avg, avgDt, pairs.length), DelaySt.new F d dt bias)
      ∧ (∀ i j, c i j = cov bias (pairs.map fun p => (p.1 i, p.2 j)))
      ∧ (∀ i, avg i = mean (pairs.map fun p => p.1 i))
      ∧ (∀ i, avgDt i = mean (pairs.map fun p => p.2 i)) := by
  have hp0 : pairs ≠ [] := by rintro rfl; cases bias <;> simp at hn
  have hne : chunks ≠ [] := by rintro rfl; exact hp0 hp
  have hr := DelaySt.run_eq chunks (DelaySt.new F d dt bias) hc (Or.inl hne)
  rw [hr]
  simp only [DelaySt.new] at *
  rw [← hp]
  have hn0 : (pairs.length : F) ≠ 0 := by simpa using hp0
  simp only [DelaySt.fix, Option.getD_none, Prod.fst_zero, Prod.snd_zero, zero_add]
  refine ⟨_, _, _, rfl, ?_, ?_, ?_⟩
  · intro i j
    have h := codev_comp pairs hp0 i j
    simp only [comp] at h
    cases bias <;> simp [cov, h, divM, outer]
  · intro i; simp [divR, colSum, mean, Function.comp_def]
  · intro i; simp [divR, colSum, mean, Function.comp_def]

/-- Two chunks with delay 1: three pairs, none across the chunks. -/
example : (∀ x ∈ ([[![1], ![2]], [![3], ![4], ![7]]] : List (List (Row ℚ 1))), 1 + 1 ≤ x.length)
    ∧ ([[![1], ![2]], [![3], ![4], ![7]]] : List (List (Row ℚ 1))).flatMap (delayed 1)
        = [(![1], ![2]), (![3], ![4]), (![4], ![7])] := by
  constructor
  · decide
  · rfl

/-- **C46**: with a transformation `A`, the matrix is `A C Aᵀ`. -/
theorem delay_fix_transform (s : DelaySt F d) (a : Mat F e d) (c : Mat F d d) (r) (s' : DelaySt F d)
    (h : s.fix = .ok ((c, r), s')) : ∃ c', s.fixA a = .ok ((c', r), s')
      ∧ ∀ i j, c' i j = ∑ k, ∑ l, a i k * c k l * a j l := by
  refine ⟨conj a c, by simp [DelaySt.fixA, h], ?_⟩
  intro i j
  simp only [conj, ← List.ofFn_eq_map, List.sum_ofFn, Finset.mul_sum, mul_assoc]

/-- **C46**: with delay zero the result is that of `CovarianceMatrix`. -/
theorem delay_zero [CharZero F] (bias : Bool) (chunks : List (List (Row F d))) (hc : ∀ x ∈ chunks, x ≠ [])
    (hn : (if bias then 1 else 2) ≤ chunks.flatten.length) :
    ∃ c avg n, ((DelaySt.new F d 0 bias).run chunks).fix = .ok ((c, avg, avg, n), DelaySt.new F d 0 bias)
      ∧ (chunks.foldl CovSt.update (CovSt.new F d bias)).fix true = .ok ((c, avg, n), CovSt.new F d bias) := by
  have hd : chunks.flatMap (delayed 0) = chunks.flatten.map fun x => (x, x) := by
    rw [← List.flatMap_id, List.map_flatMap]
    congr 1
    funext x
    simp only [delayed, List.drop_zero, List.zip, List.zipWith_self, id]
  obtain ⟨c, avg, avg', h1, h2, h3, h4⟩ := delay_covariance_correct 0 bias chunks
    (fun x hx => by have := hc x hx; have := List.length_pos_of_ne_nil this; omega) _ rfl (by rw [hd, List.length_map]; exact hn)
  obtain ⟨c', avg'', h1', h2', h3'⟩ := covariance_correct bias chunks hn
  simp only [hd, List.map_map, Function.comp_def, List.length_map] at h1 h2 h3 h4
  have e1 : c = c' := by funext i j; rw [h2, h2']
  have e2 : avg = avg'' := by funext i; rw [h3, h3']
  have e3 : avg' = avg'' := by funext i; rw [h4, h3']
  subst e1; subst e2; subst e3
  exact ⟨c, _, _, h1, h1'⟩

/-! ## CrossCovarianceMatrix (C77) -/

def CrossSt.run (s : CrossSt F d e) (chunks : List (List (Row F d) × List (Row F e))) : CrossSt F d e :=
  chunks.foldl (fun s x => (s.update x.1 x.2).2) s

/-- The chunks that are accepted: as many rows in `y` as in `x`. -/
def okPairs (chunks : List (List (Row F d) × List (Row F e))) : List (List (Row F d) × List (Row F e)) :=
  chunks.filter fun c => c.1.length = c.2.length

theorem CrossSt.run_eq (chunks : List (List (Row F d) × List (Row F e))) (s : CrossSt F d e)
    (h : okPairs chunks ≠ [] ∨ s.acc ≠ none) :
    s.run chunks = ⟨some ((s.acc.getD 0).1 + mom ((okPairs chunks).flatMap fun c => c.1.zip c.2),
      (s.acc.getD 0).2.1 + colSum (((okPairs chunks).flatMap fun c => c.1.zip c.2).map (·.1)),
      (s.acc.getD 0).2.2 + colSum (((okPairs chunks).flatMap fun c => c.1.zip c.2).map (·.2))),
      s.tlen + ((okPairs chunks).flatMap fun c => c.1.zip c.2).length, s.bias⟩ := by
  induction chunks generalizing s with
  | nil =>
    rcases s with ⟨_ | a, t, b⟩
    · simp [okPairs] at h
    · simp [CrossSt.run, okPairs]
  | cons c cs ih =>
    rw [CrossSt.run, List.foldl_cons, ← CrossSt.run]
    by_cases hc : c.1.length = c.2.length
    · rw [show (s.update c.1 c.2).2 = ⟨some ((s.acc.getD 0).1 + mom (c.1.zip c.2),
          (s.acc.getD 0).2.1 + colSum ((c.1.zip c.2).map (·.1)), (s.acc.getD 0).2.2 + colSum ((c.1.zip c.2).map (·.2))),
          s.tlen + (c.1.zip c.2).length, s.bias⟩ by
        rw [List.map_fst_zip (by omega), List.map_snd_zip (by omega), ← multT_eq_mom, List.length_zip, hc, Nat.min_self]
        simp only [CrossSt.update, hc, ne_eq, not_true_eq_false, if_false]; rfl]
      rw [ih _ (by simp)]
      simp only [okPairs, List.filter_cons, hc, decide_true, if_true, Option.getD_some, List.flatMap_cons, mom_append,
        List.map_append, colSum_append, add_assoc, List.length_append]
    · have hk : okPairs (c :: cs) = okPairs cs := by simp [okPairs, hc]
      rw [hk] at h ⊢
      rw [← ih s h, show (s.update c.1 c.2).2 = s by simp [CrossSt.update, hc]]

/-- **C77**: after any updates, those with different numbers of rows in `x` and `y` being refused, `fix` returns
the sample cross-covariance, the two means and the number of all accepted pairs of rows; the object is as new. -/
theorem cross_covariance_correct [CharZero F] (bias : Bool) (chunks : List (List (Row F d) × List (Row F e)))
    (pairs : List (Row F d × Row F e)) (hp : pairs = (okPairs chunks).flatMap fun c => c.1.zip c.2)
    (hn : (if bias then 1 else 2) ≤ pairs.length) :
    ∃ c avgx avgy, ((CrossSt.new F d e bias).run chunks).fix
        = .ok ((c, avgx, avgy, pairs.length), CrossSt.new F d e bias)
      ∧ (∀ i j, c i j = cov bias (pairs.map fun p => (p.1 i, p.2 j)))
      ∧ (∀ i, avgx i = mean (pairs.map fun p => p.1 i))
      ∧ (∀ i, avgy i = mean (pairs.map fun p => p.2 i)) := by
  have hp0 : pairs ≠ [] := by rintro rfl; cases bias <;> simp at hn
  have hne : okPairs chunks ≠ [] := by intro h; rw [h] at hp; exact hp0 hp
  have hr := CrossSt.run_eq chunks (CrossSt.new F d e bias) (Or.inl hne)
  rw [hr]
  simp only [CrossSt.new] at *
  rw [← hp]
  have hn0 : (pairs.length : F) ≠ 0 := by simpa using hp0
  simp only [CrossSt.fix, Option.getD_none, Prod.fst_zero, Prod.snd_zero, zero_add]
  refine ⟨_, _, _, rfl, ?_, ?_, ?_⟩
  · intro i j
    have h := codev_comp pairs hp0 i j
    simp only [comp] at h
    cases bias
    · have := cast_sub_one_ne (F := F) (n := pairs.length) (by simpa using hn)
      simp [cov, h, divM, outer]
      field_simp
    · simp [cov, h, divM, outer]
      field_simp
  · intro i; simp [divR, colSum, mean, Function.comp_def]
  · intro i; simp [divR, colSum, mean, Function.comp_def]

example : (okPairs ([([![1]], [![2, 3]]), ([![1]], []), ([![4]], [![5, 5]])] : List (List (Row ℚ 1) × List (Row ℚ 2)))).flatMap
    (fun c => c.1.zip c.2) = [(![1], ![2, 3]), (![4], ![5, 5])] := by rfl

/-- **C77**: exactly the updates with different numbers of rows are refused, with no effect. -/
theorem cross_rejects_mismatch (s : CrossSt F d e) (x : List (Row F d)) (y : List (Row F e)) :
    (s.update x y).1 = (if x.length = y.length then .ok () else .error .mismatch)
    ∧ (x.length ≠ y.length → (s.update x y).2 = s) := by
  unfold CrossSt.update
  split <;> simp_all

/-! ## MultipleCovarianceMatrices (C46, C78) -/

/-- **C46**: `symmetrize` makes a matrix symmetric and changes nothing on a symmetric one. -/
theorem symmetrize_symmetric [CharZero F] (c : Mat F d d) :
    (∀ i j, symmetrize c i j = symmetrize c j i) ∧ ((∀ i j, c i j = c j i) → symmetrize c = c) := by
  constructor
  · intro i j; simp [symmetrize, add_comm]
  · intro h; funext i j; simp only [symmetrize, ← h i j]; ring

/-- The matrix with columns `i` and `j` rotated, others unchanged. -/
def givens (c s : F) (i j : Fin d) : Mat F d d := fun k l =>
  if k = i ∧ l = i then c else if k = j ∧ l = i then -s else
  if k = i ∧ l = j then s else if k = j ∧ l = j then c else if k = l then 1 else 0

/-- `Gᵀ M G` by sums over all indices. -/
def congr2 (g m : Mat F d d) : Mat F d d := fun a b => ∑ k, ∑ l, g k a * m k l * g l b

theorem sum_givens (c s : F) (i j : Fin d) (hij : i ≠ j) (f : Fin d → F) (a : Fin d) :
    ∑ k, givens c s i j k a * f k = if a = i then c * f i - s * f j else if a = j then s * f i + c * f j else f a := by
  by_cases hi : a = i
  · subst hi
    rw [if_pos rfl, ← Finset.sum_subset (Finset.subset_univ {a, j}), Finset.sum_pair hij]
    · simp [givens, hij, hij.symm]; ring
    · intro k _ hk
      simp only [Finset.mem_insert, Finset.mem_singleton, not_or] at hk
      simp [givens, hk]
  · by_cases hj : a = j
    · subst hj
      rw [if_neg hi, if_pos rfl, ← Finset.sum_subset (Finset.subset_univ {i, a}), Finset.sum_pair hij]
      · simp [givens, hij, hij.symm]
      · intro k _ hk
        simp only [Finset.mem_insert, Finset.mem_singleton, not_or] at hk
        simp [givens, hk]
    · rw [if_neg hi, if_neg hj, Finset.sum_eq_single a]
      · simp [givens, hi, hj]
      · intro k _ hk; simp [givens, hi, hj, hk]
      · simp

/-- **C78**: `rotate` replaces every matrix `C` by `Gᵀ C G`, `G` the rotation by the angle in the plane of the two
indices. -/
theorem rotate_eq (c s : F) (i j : Fin d) (hij : i ≠ j) (m : Mat F d d) :
    rotate c s i j m = congr2 (givens c s i j) m := by
  funext a b
  have h : congr2 (givens c s i j) m a b = ∑ k, givens c s i j k a * ∑ l, givens c s i j l b * m k l := by
    unfold congr2
    refine Finset.sum_congr rfl fun k _ => ?_
    rw [Finset.mul_sum]
    exact Finset.sum_congr rfl fun l _ => by ring
  rw [h]
  simp only [sum_givens c s i j hij]
  have hji := hij.symm
  unfold rotate
  by_cases h1 : a = i <;> by_cases h2 : a = j <;> by_cases h3 : b = i <;> by_cases h4 : b = j <;>
    simp_all <;> (try subst_vars) <;> simp_all

/-- **C78**: `permute` swaps the two rows and the two columns and leaves the rest. -/
theorem permute_eq (i j : Fin d) (m : Mat F d d) (a b : Fin d) :
    permute i j m a b = m (Equiv.swap i j a) (Equiv.swap i j b) := by
  simp only [permute, Equiv.swap_apply_def]
  by_cases h1 : a = i <;> by_cases h2 : a = j <;> by_cases h3 : b = i <;> by_cases h4 : b = j <;>
    simp_all <;> (try subst_vars) <;> simp_all

/-- **C78**: `transform` is `C ↦ Tᵀ C T`. -/
theorem transform_eq (t m : Mat F d d) : transform t m = congr2 t m := by
  funext a b
  simp only [transform, congr2, ← List.ofFn_eq_map, List.sum_ofFn, Finset.sum_mul]
  rw [Finset.sum_comm]

/-- **C78**: rotations, permutations and transformations keep symmetric matrices symmetric. -/
theorem congr2_symmetric (g m : Mat F d d) (h : ∀ i j, m i j = m j i) (i j : Fin d) : congr2 g m i j = congr2 g m j i := by
  unfold congr2
  rw [Finset.sum_comm]
  refine Finset.sum_congr rfl fun k _ => Finset.sum_congr rfl fun l _ => ?_
  rw [h l k]; ring

/-- **C78**: rotating by the opposite angle undoes a rotation. -/
theorem rotate_inverse (c s : F) (hcs : c * c + s * s = 1) (i j : Fin d) (hij : i ≠ j) (m : Mat F d d) :
    rotate c (-s) i j (rotate c s i j m) = m := by
  funext a b
  have hji := hij.symm
  rw [rotate_eq _ _ _ _ hij, rotate_eq _ _ _ _ hij]
  have h : ∀ (s : F) (m : Mat F d d) (a b : Fin d), congr2 (givens c s i j) m a b
      = ∑ k, givens c s i j k a * ∑ l, givens c s i j l b * m k l := by
    intro s m a b
    unfold congr2
    refine Finset.sum_congr rfl fun k _ => ?_
    rw [Finset.mul_sum]
    exact Finset.sum_congr rfl fun l _ => by ring
  simp only [h, sum_givens _ _ i j hij]
  by_cases a1 : a = i
  · subst a1
    by_cases b1 : b = a
    · subst b1; simp [hji]; linear_combination (2 * s * s * m b b - s * s * m b b + (c * c) * m b b + m b b) * hcs
    · by_cases b2 : b = j
      · subst b2; simp [hji]; linear_combination (c * c + s * s + 1) * m a b * hcs
      · simp [hji, b1, b2]; linear_combination m a b * hcs
  · by_cases a2 : a = j
    · subst a2
      by_cases b1 : b = i
      · subst b1; simp [hji]; linear_combination (c * c + s * s + 1) * m a b * hcs
      · by_cases b2 : b = a
        · subst b2; simp [hji]; linear_combination (c * c + s * s + 1) * m b b * hcs
        · simp [hji, b1, b2]; linear_combination m a b * hcs
    · by_cases b1 : b = i
      · subst b1; simp [hji, a1, a2]; linear_combination m a b * hcs
      · by_cases b2 : b = j
        · subst b2; simp [hji, a1, a2]; linear_combination m a b * hcs
        · simp [b1, b2, a1, a2]

/-- An angle that is not a multiple of a right angle. -/
example : (3 / 5 : ℚ) * (3 / 5) + 4 / 5 * (4 / 5) = 1 ∧ rotate (3 / 5 : ℚ) (4 / 5) 0 1 ![![25, 0], ![0, 50]] 0 0 = 41 := by
  constructor
  · norm_num
  · simp [rotate]; norm_num

/-- **C78**: a rotation keeps the trace. -/
theorem rotate_trace (c s : F) (hcs : c * c + s * s = 1) (i j : Fin d) (hij : i ≠ j) (m : Mat F d d) :
    ∑ k, rotate c s i j m k k = ∑ k, m k k := by
  have hs : ∀ f : Fin d → F, ∑ k, f k = f i + f j + ∑ k ∈ (Finset.univ.erase i).erase j, f k := by
    intro f
    rw [add_assoc, Finset.add_sum_erase _ _ (by simp [hij.symm]), Finset.add_sum_erase _ _ (by simp)]
  rw [hs, hs fun k => m k k]
  congr 1
  · simp [rotate, hij, hij.symm]
    linear_combination (m i i + m j j) * hcs
  · refine Finset.sum_congr rfl fun k hk => ?_
    simp only [Finset.mem_erase, Finset.mem_univ, and_true] at hk
    simp [rotate, hk]

end Mdp.Cov
