import Verif.Num.Vartime
import Verif.Num.CovProps
import Mathlib.Algebra.Order.Field.Rat
import Mathlib.Tactic.Linarith
import Mathlib.Analysis.Real.Sqrt

/-!
# VartimeCovarianceMatrix computes time-weighted covariances by the trapezoid rule (C47)
-/

namespace Mdp.Cov

variable {F : Type} [Field F] [LinearOrder F] [IsStrictOrderedRing F] {d : Nat}

/-! ## Specification -/

/-- Trapezoid rule for the integral of `f` along a signal. Every sample comes with the time since the sample before
(the number of the first sample is not used). -/
def trapz (f : Row F d → F) : List (F × Row F d) → F
  | (_, x) :: (t, y) :: l => t * (f x + f y) / 2 + trapz f ((t, y) :: l)
  | _ => 0

/-- Total time. -/
def duration (l : List (F × Row F d)) : F := ((l.drop 1).map (·.1)).sum

/-- The samples of a chunk with their times: equally spaced, or as given by an array of the length of the chunk or
one shorter. -/
def timed (x : List (Row F d)) : Dt F → List (F × Row F d)
  | .none => x.map fun a => (1, a)
  | .const c => x.map fun a => (c, a)
  | .arr l => if l.length = x.length then l.zip x else (0 :: l).zip x

/-- Chunks as the documentation of `update` asks for: at least one row; positive increments; an array of
increments is one shorter than the chunk or, if `full`, as long as the chunk (then with two rows or more). -/
def goodChunk (full : Bool) (c : List (Row F d) × Dt F) : Prop :=
  match c.2 with
  | .none => c.1 ≠ []
  | .const k => c.1 ≠ [] ∧ 0 < k
  | .arr l => (∀ t ∈ l, 0 < t) ∧ (if full then l.length = c.1.length ∧ 2 ≤ c.1.length else c.1.length = l.length + 1)

/-! ## The trapezoid rule -/

theorem trapz_linear (f g : Row F d → F) (a b : F) (l : List (F × Row F d)) :
    trapz (fun x => a * f x + b * g x) l = a * trapz f l + b * trapz g l := by
  induction l with
  | nil => simp [trapz]
  | cons p l ih =>
    cases l with
    | nil => simp [trapz]
    | cons q l => simp only [trapz, ih]; ring

theorem trapz_one (l : List (F × Row F d)) : trapz (fun _ => 1) l = duration l := by
  induction l with
  | nil => rfl
  | cons p l ih =>
    cases l with
    | nil => rfl
    | cons q l =>
      simp only [trapz, ih, duration, List.drop_succ_cons, List.drop_zero, List.map_cons, List.sum_cons]; ring

theorem trapz_append (f : Row F d → F) (l : List (F × Row F d)) (p q : F × Row F d) (r : List (F × Row F d)) :
    trapz f (l ++ p :: q :: r) = trapz f (l ++ [p]) + q.1 * (f p.2 + f q.2) / 2 + trapz f (q :: r) := by
  induction l with
  | nil => simp [trapz]
  | cons a l ih =>
    cases l with
    | nil => simp [trapz]; ring
    | cons b l =>
      simp only [List.cons_append, trapz] at ih ⊢
      rw [ih]; ring

theorem duration_append (l : List (F × Row F d)) (p q : F × Row F d) (r : List (F × Row F d)) :
    duration (l ++ p :: q :: r) = duration (l ++ [p]) + q.1 + duration (q :: r) := by
  rw [← trapz_one, ← trapz_one, ← trapz_one, trapz_append]; ring

/-- The sums formed from the rows without the first and without the last. -/
theorem trapz_sums (f : Row F d → F) (x0 : Row F d) (t0 : F) (rest : List (Row F d)) (w : List F)
    (h : w.length = rest.length) :
    trapz f ((t0, x0) :: w.zip rest)
      = (List.zipWith (fun a t => t * f a) rest w).sum / 2
        + (List.zipWith (fun a t => t * f a) (x0 :: rest).dropLast w).sum / 2 := by
  induction rest generalizing x0 w t0 with
  | nil => cases w <;> simp_all [trapz]
  | cons y rest ih =>
    cases w with
    | nil => simp at h
    | cons t w =>
      have := ih y t w (by simpa using h)
      simp only [List.zip_cons_cons, trapz, this, List.zipWith_cons_cons, List.sum_cons, List.dropLast_cons_cons]
      ring

theorem multT_scale (sq : F → F) (hsq : ∀ a, 0 ≤ a → sq a * sq a = a) (x : List (Row F d)) (w : List F)
    (hw : ∀ t ∈ w, 0 ≤ t) (i j : Fin d) :
    multT (scale x (w.map sq)) (scale x (w.map sq)) i j = (List.zipWith (fun a t => t * (a i * a j)) x w).sum := by
  induction x generalizing w with
  | nil => simp [multT, scale]
  | cons a x ih =>
    cases w with
    | nil => simp [multT, scale]
    | cons t w =>
      have := ih w (fun t ht => hw t (by simp [ht]))
      simp only [multT, scale, List.map_cons, List.zipWith_cons_cons, List.sum_cons] at this ⊢
      rw [this]
      have := hsq t (hw t (by simp))
      linear_combination a i * a j * this

theorem colSum_scale (x : List (Row F d)) (w : List F) (i : Fin d) :
    colSum (scale x w) i = (List.zipWith (fun a t => t * a i) x w).sum := by
  simp only [colSum, scale, List.map_zipWith, mul_comm]

/-! ## One update -/

theorem steps_timed (full : Bool) (c : List (Row F d) × Dt F) (hc : goodChunk full c) :
    ∃ t0 x0 rest, c.1 = x0 :: rest ∧ (steps c.1.length c.2).length = rest.length
      ∧ timed c.1 c.2 = (t0, x0) :: (steps c.1.length c.2).zip rest
      ∧ (∀ t ∈ steps c.1.length c.2, 0 ≤ t)
      ∧ stepSum c.1.length c.2 = (steps c.1.length c.2).sum
      ∧ (match c.2 with
          | .none => t0 = 1
          | .const k => t0 = k
          | .arr l => l.length = c.1.length → l.head? = some t0) := by
  obtain ⟨x, dt⟩ := c
  have hmap : ∀ (k : F) (l : List (Row F d)), l.map (fun a => (k, a)) = (List.replicate l.length k).zip l := by
    intro k l
    induction l with
    | nil => rfl
    | cons a l ih => simp [List.replicate_succ, ih]
  cases dt with
  | none =>
    cases x with
    | nil => simp [goodChunk] at hc
    | cons x0 rest => exact ⟨1, x0, rest, rfl, by simp [steps], by simp [timed, steps, hmap, List.replicate_succ], by simp [steps],
        by simp [steps, stepSum], rfl⟩
  | const k =>
    cases x with
    | nil => simp [goodChunk] at hc
    | cons x0 rest =>
      simp only [goodChunk] at hc
      exact ⟨k, x0, rest, rfl, by simp [steps], by simp [timed, steps, hmap, List.replicate_succ],
        by intro t ht; simp [steps] at ht; rw [ht.2]; exact hc.2.le,
        by simp [steps, stepSum, mul_comm], rfl⟩
  | arr l =>
    simp only [goodChunk] at hc
    obtain ⟨hpos, hc⟩ := hc
    cases full
    · simp only [Bool.false_eq_true, if_false] at hc
      cases x with
      | nil => simp at hc
      | cons x0 rest =>
        simp only [List.length_cons, Nat.add_right_cancel_iff] at hc
        have hs : steps (x0 :: rest).length (Dt.arr l) = l := by
          simp only [steps, List.length_cons, Nat.add_sub_cancel, hc, Nat.sub_self, List.drop_zero, ite_self]
        rw [hs]
        refine ⟨0, x0, rest, rfl, hc.symm, ?_, fun t ht => (hpos t ht).le, ?_, ?_⟩
        · simp only [timed]; rw [if_neg (by simp; omega)]; rfl
        · simp only [stepSum, hs]
        · intro h; simp at h; omega
    · simp only [if_true] at hc
      cases x with
      | nil => simp at hc
      | cons x0 rest =>
        cases l with
        | nil => simp at hc
        | cons t0 l =>
          simp only [List.length_cons] at hc
          have hs : steps (x0 :: rest).length (Dt.arr (t0 :: l)) = l := by
            simp only [steps, List.length_cons, Nat.add_sub_cancel]
            rw [if_neg (by omega), show l.length + 1 - rest.length = 1 by omega]; rfl
          rw [hs]
          refine ⟨t0, x0, rest, rfl, by omega, ?_, fun t ht => (hpos t (by simp [ht])).le, ?_, ?_⟩
          · simp only [timed]; rw [if_pos (by simp; omega)]; rfl
          · simp only [stepSum, hs]
          · simp

/-- Contribution of the time between two chunks. -/
def gapTerm (g : Option F) (f : Row F d → F) (x y : Row F d) : F :=
  match g with
  | none => 0
  | some t => t * (f x + f y) / 2

theorem VarSt.update_ok (sq : F → F) (hsq : ∀ a, 0 ≤ a → sq a * sq a = a) (s : VarSt F d) (full : Bool)
    (c : List (Row F d) × Dt F) (td : Bool) (hc : goodChunk full c) (hk : s.check c.1.length c.2 td = none)
    (x0 xl : Row F d) (h0 : c.1.head? = some x0) (hl : c.1.getLast? = some xl) :
    ∃ s' C A, s.update sq c.1 c.2 td = (.ok (), s') ∧ s'.acc = some (C, A) ∧ s'.tchunk = s.tchunk + 1 ∧ s'.xlast = xl
      ∧ (∀ i j, C i j = (s.acc.getD 0).1 i j + gapTerm (s.gap c.1.length c.2 td) (fun a => a i * a j) s.xlast x0
          + trapz (fun a => a i * a j) (timed c.1 c.2))
      ∧ (∀ i, A i = (s.acc.getD 0).2 i + gapTerm (s.gap c.1.length c.2 td) (fun a => a i) s.xlast x0
          + trapz (fun a => a i) (timed c.1 c.2))
      ∧ s'.tlen = s.tlen + (s.gap c.1.length c.2 td).getD 0 + duration (timed c.1 c.2) := by
  obtain ⟨t0, x0', rest, hx, hlen, ht, hpos, hsum, -⟩ := steps_timed full c hc
  have e0 : x0' = x0 := by rw [hx] at h0; simpa using h0
  subst e0
  unfold VarSt.update
  simp only [hk, h0, hl]
  generalize hw : steps c.1.length c.2 = w at *
  have hdrop : c.1.drop 1 = rest := by rw [hx]; rfl
  rw [hdrop, hsum]
  have hd : duration (timed c.1 c.2) = w.sum := by
    rw [ht]
    simp only [duration, List.drop_succ_cons, List.drop_zero, List.map_fst_zip (le_of_eq hlen)]
  have hcov : ∀ i j, trapz (fun a => a i * a j) (timed c.1 c.2)
      = multT (scale rest (w.map sq)) (scale rest (w.map sq)) i j / 2
        + multT (scale c.1.dropLast (w.map sq)) (scale c.1.dropLast (w.map sq)) i j / 2 := by
    intro i j
    rw [ht, trapz_sums _ _ _ _ _ hlen, multT_scale sq hsq _ _ hpos, multT_scale sq hsq _ _ hpos, hx]
  have havg : ∀ i, trapz (fun a => a i) (timed c.1 c.2)
      = colSum (scale rest w) i / 2 + colSum (scale c.1.dropLast w) i / 2 := by
    intro i
    rw [ht, trapz_sums _ _ _ _ _ hlen, colSum_scale, colSum_scale, hx]
  cases hg : s.gap c.1.length c.2 td with
  | none =>
    refine ⟨_, _, _, rfl, rfl, rfl, rfl, ?_, ?_, ?_⟩
    · intro i j; rw [hcov]; simp [half, divM, gapTerm]; rw [add_assoc]; rfl
    · intro i; rw [havg]; simp [divR, gapTerm]; rw [add_assoc, add_comm (colSum _ _ / 2)]; rfl
    · simp [hd]
  | some g =>
    refine ⟨_, _, _, rfl, rfl, rfl, rfl, ?_, ?_, ?_⟩
    · intro i j; rw [hcov]; simp [half, divM, gapTerm, outer]
      rw [add_assoc]; congr 1; rw [mul_comm g]; rfl
    · intro i; rw [havg]; simp [divR, gapTerm]
      rw [add_assoc, add_comm (colSum _ _ / 2)]; congr 1; rw [mul_comm g]; rfl
    · simp [hd]

/-! ## Histories -/

/-- Give chunks one after the other; the caller stops at the first exception. -/
def VarSt.feed (sq : F → F) (td : Bool) (s : VarSt F d) :
    List (List (Row F d) × Dt F) → Except VErr Unit × VarSt F d
  | [] => (.ok (), s)
  | c :: cs => match s.update sq c.1 c.2 td with
    | (.ok (), s') => s'.feed sq td cs
    | (.error e, s') => (.error e, s')

/-- What the object holds after a signal has been seen. -/
structure Holds (s : VarSt F d) (sig : List (F × Row F d)) : Prop where
  acc : ∃ C A, s.acc = some (C, A) ∧ (∀ i j, C i j = trapz (fun a => a i * a j) sig)
    ∧ (∀ i, A i = trapz (fun a => a i) sig)
  tlen : s.tlen = duration sig
  last : (sig.getLast?.map (·.2)) = some s.xlast
  started : s.tchunk > 0

theorem timed_last (full : Bool) (c : List (Row F d) × Dt F) (hc : goodChunk full c) :
    (timed c.1 c.2).getLast?.map (·.2) = c.1.getLast? := by
  obtain ⟨t0, x0, rest, hx, hlen, ht, -⟩ := steps_timed full c hc
  rw [ht, ← List.getLast?_map, List.map_cons, List.map_snd_zip (le_of_eq hlen.symm), hx]

theorem good_check (s : VarSt F d) (full td : Bool) (c : List (Row F d) × Dt F) (hc : goodChunk full c)
    (h : full = true ∨ td = false ∨ s.tchunk = 0) : s.check c.1.length c.2 td = none := by
  obtain ⟨x, dt⟩ := c
  cases dt with
  | none => rfl
  | const k => simp only [goodChunk] at hc; simp [VarSt.check, hc.2]
  | arr l =>
    simp only [goodChunk] at hc
    simp only [VarSt.check]
    cases full
    · simp only [Bool.false_eq_true, if_false] at hc
      rw [if_neg, if_neg]
      · omega
      · rintro ⟨h1, h2, h3⟩
        rcases h with h | h | h
        · cases h
        · simp [h] at h1
        · omega
    · simp only [if_true] at hc
      rw [if_neg (by omega), if_neg (by omega)]

theorem good_ends (full : Bool) (c : List (Row F d) × Dt F) (hc : goodChunk full c) :
    ∃ x0 xl, c.1.head? = some x0 ∧ c.1.getLast? = some xl := by
  obtain ⟨t0, x0, rest, hx, -⟩ := steps_timed full c hc
  rw [hx]
  exact ⟨x0, _, rfl, List.getLast?_cons ..⟩

theorem holds_first (sq : F → F) (hsq : ∀ a, 0 ≤ a → sq a * sq a = a) (full td : Bool) (c : List (Row F d) × Dt F)
    (hc : goodChunk full c) :
    ∃ s', (VarSt.new F d).update sq c.1 c.2 td = (.ok (), s') ∧ Holds s' (timed c.1 c.2) := by
  obtain ⟨x0, xl, h0, hl⟩ := good_ends full c hc
  obtain ⟨s', C, A, hu, ha, ht, hx, hC, hA, hT⟩ := VarSt.update_ok sq hsq (VarSt.new F d) full c td hc
    (good_check _ full td c hc (Or.inr (Or.inr rfl))) x0 xl h0 hl
  have hg : (VarSt.new F d).gap c.1.length c.2 td = none := by simp [VarSt.gap, VarSt.new]
  rw [hg] at hC hA hT
  refine ⟨s', hu, ⟨C, A, ha, ?_, ?_⟩, ?_, ?_, by rw [ht]; exact Nat.succ_pos _⟩
  · intro i j; rw [hC]; simp [VarSt.new, gapTerm]
  · intro i; rw [hA]; simp [VarSt.new, gapTerm]
  · rw [hT]; simp [VarSt.new]
  · rw [timed_last full c hc, hl, hx]

theorem holds_next (sq : F → F) (hsq : ∀ a, 0 ≤ a → sq a * sq a = a) (c : List (Row F d) × Dt F)
    (hc : goodChunk true c) (s : VarSt F d) (sig : List (F × Row F d)) (hs : Holds s sig) :
    ∃ s', s.update sq c.1 c.2 true = (.ok (), s') ∧ Holds s' (sig ++ timed c.1 c.2) := by
  obtain ⟨x0, xl, h0, hl⟩ := good_ends true c hc
  obtain ⟨s', C, A, hu, ha, ht, hx, hC, hA, hT⟩ := VarSt.update_ok sq hsq s true c true hc
    (good_check _ true true c hc (Or.inl rfl)) x0 xl h0 hl
  obtain ⟨⟨C0, A0, ha0, hC0, hA0⟩, hT0, hl0, hst⟩ := hs
  obtain ⟨t0, x0', rest, hx', hlen, htm, -, -, hfirst⟩ := steps_timed true c hc
  have e0 : x0' = x0 := by rw [hx'] at h0; simpa using h0
  subst e0
  have hg : s.gap c.1.length c.2 true = some t0 := by
    unfold VarSt.gap
    rw [if_pos hst]
    obtain ⟨x, dt⟩ := c
    cases dt with
    | none => simp at hfirst ⊢; exact hfirst.symm
    | const k => simp at hfirst ⊢; exact hfirst.symm
    | arr l =>
      simp only [goodChunk, if_true] at hc
      simp only [hc.2.1, if_true]
      exact hfirst hc.2.1
  obtain ⟨l, p, rfl, hp⟩ : ∃ l p, sig = l ++ [p] ∧ p.2 = s.xlast := by
    rcases List.eq_nil_or_concat sig with rfl | ⟨l, p, rfl⟩
    · simp at hl0
    · exact ⟨l, p, by simp, by simpa using hl0⟩
  rw [hg] at hC hA hT
  refine ⟨s', hu, ⟨C, A, ha, ?_, ?_⟩, ?_, ?_, by rw [ht]; exact Nat.succ_pos _⟩
  · intro i j
    rw [hC, ha0, htm, List.append_assoc, List.singleton_append, trapz_append]
    simp [hC0, gapTerm, hp]
  · intro i
    rw [hA, ha0, htm, List.append_assoc, List.singleton_append, trapz_append]
    simp [hA0, gapTerm, hp]
  · rw [hT, htm, List.append_assoc, List.singleton_append, duration_append, hT0]
    simp
  · rw [List.getLast?_append, htm]
    rw [← htm]
    have h2 := timed_last true c hc
    rw [hl] at h2
    cases hq : (timed c.1 c.2).getLast? with
    | none => rw [hq] at h2; simp at h2
    | some q => rw [hq] at h2; simp at h2 ⊢; rw [h2, hx]

theorem holds_feed (sq : F → F) (hsq : ∀ a, 0 ≤ a → sq a * sq a = a) (cs : List (List (Row F d) × Dt F))
    (hcs : ∀ c ∈ cs, goodChunk true c) (s : VarSt F d) (sig : List (F × Row F d)) (hs : Holds s sig) :
    ∃ s', s.feed sq true cs = (.ok (), s') ∧ Holds s' (sig ++ cs.flatMap fun c => timed c.1 c.2) := by
  induction cs generalizing s sig with
  | nil => exact ⟨s, rfl, by simpa using hs⟩
  | cons c cs ih =>
    obtain ⟨s', hu, h'⟩ := holds_next sq hsq c (hcs c (by simp)) s sig hs
    obtain ⟨s'', hf, h''⟩ := ih (fun c hc => hcs c (by simp [hc])) s' _ h'
    exact ⟨s'', by simp only [VarSt.feed, hu, hf], by simpa [List.flatMap_cons, List.append_assoc] using h''⟩

/-- Mean of a quantity along a signal. -/
def tmean (f : Row F d → F) (sig : List (F × Row F d)) : F := trapz f sig / duration sig

theorem fix_of_sums (s : VarSt F d) (T : (Row F d → F) → F) (C : Mat F d d) (A : Row F d)
    (hlin : ∀ f g a b, T (fun x => a * f x + b * g x) = a * T f + b * T g)
    (hacc : s.acc = some (C, A)) (hC : ∀ i j, C i j = T (fun a => a i * a j)) (hA : ∀ i, A i = T (fun a => a i))
    (hT : s.tlen = T (fun _ => 1)) (hpos : T (fun _ => 1) ≠ 0) :
    ∃ c avg s', s.fix true = .ok ((c, avg, T (fun _ => 1)), s')
      ∧ (∀ i, avg i = T (fun a => a i) / T (fun _ => 1))
      ∧ (∀ i j, c i j = T (fun a => (a i - avg i) * (a j - avg j)) / T (fun _ => 1)) := by
  simp only [VarSt.fix, hacc, hT]
  refine ⟨_, _, _, rfl, ?_, ?_⟩
  · intro i; simp [divR, hA]
  · intro i j
    simp only [divR, hA]
    generalize hmi : T (fun a => a i) / T (fun _ => 1) = mi
    generalize hmj : T (fun a => a j) / T (fun _ => 1) = mj
    have key : T (fun a => (a i - mi) * (a j - mj))
        = T (fun a => a i * a j) - mi * T (fun a => a j) - mj * T (fun a => a i) + mi * mj * T (fun _ => 1) := by
      have e : (fun a : Row F d => (a i - mi) * (a j - mj)) = fun a => 1 * ((fun a : Row F d => 1 * (a i * a j)
          + (-mi) * a j) a) + 1 * ((fun a : Row F d => (-mj) * a i + (mi * mj) * 1) a) := by funext a; ring
      rw [e, hlin, hlin, hlin]; ring
    rw [key]
    simp only [if_true, Pi.sub_apply, divM, outer, hC, hA]
    rw [← hmi, ← hmj]
    field_simp
    ring

/-- **C47**, time dependence: however a signal is cut into chunks, `fix` returns the total time, the time-weighted
mean and the time-weighted covariance, by the trapezoid rule over the whole signal. Missing for the full property:
a chunk of one row with an array of increments (see `single_row_wrong`), a second data set (see
`fix_keeps_last`). -/
theorem vartime_correct_partial (sq : F → F) (hsq : ∀ a, 0 ≤ a → sq a * sq a = a)
    (c : List (Row F d) × Dt F) (cs : List (List (Row F d) × Dt F)) (full : Bool) (hc : goodChunk full c)
    (hcs : ∀ c ∈ cs, goodChunk true c) (sig : List (F × Row F d))
    (hsig : sig = timed c.1 c.2 ++ cs.flatMap fun c => timed c.1 c.2) (h2 : duration sig ≠ 0) :
    ∃ s m avg s', (VarSt.new F d).feed sq true (c :: cs) = (.ok (), s)
      ∧ s.fix true = .ok ((m, avg, duration sig), s')
      ∧ (∀ i, avg i = tmean (fun a => a i) sig)
      ∧ (∀ i j, m i j = tmean (fun a => (a i - avg i) * (a j - avg j)) sig) := by
  obtain ⟨s1, hu, h1⟩ := holds_first sq hsq full true c hc
  obtain ⟨s, hf, hs⟩ := holds_feed sq hsq cs hcs s1 _ h1
  rw [← hsig] at hs
  obtain ⟨⟨C, A, ha, hC, hA⟩, hT, -, -⟩ := hs
  obtain ⟨m, avg, s', hfix, h3, h4⟩ := fix_of_sums s (fun f => trapz f sig) C A
    (fun f g a b => trapz_linear f g a b sig) ha hC hA (by rw [trapz_one, hT]) (by rw [trapz_one]; exact h2)
  simp only [trapz_one] at hfix h3 h4
  exact ⟨s, m, avg, s', by simp only [VarSt.feed, hu, hf], hfix, h3, h4⟩

/-! ## Without time dependence -/

structure HoldsSep (s : VarSt F d) (segs : List (List (F × Row F d))) : Prop where
  acc : ∀ i j, (s.acc.getD 0).1 i j = (segs.map (trapz fun a => a i * a j)).sum
  avg : ∀ i, (s.acc.getD 0).2 i = (segs.map (trapz fun a => a i)).sum
  some : segs ≠ [] → s.acc ≠ none
  tlen : s.tlen = (segs.map duration).sum

theorem holdsSep_feed (sq : F → F) (hsq : ∀ a, 0 ≤ a → sq a * sq a = a) (cs : List (List (Row F d) × Dt F))
    (hcs : ∀ c ∈ cs, goodChunk false c) (s : VarSt F d) (segs : List (List (F × Row F d))) (hs : HoldsSep s segs) :
    ∃ s', s.feed sq false cs = (.ok (), s') ∧ HoldsSep s' (segs ++ cs.map fun c => timed c.1 c.2) := by
  induction cs generalizing s segs with
  | nil => exact ⟨s, rfl, by simpa using hs⟩
  | cons c cs ih =>
    have hc := hcs c (by simp)
    obtain ⟨x0, xl, h0, hl⟩ := good_ends false c hc
    obtain ⟨s', C, A, hu, ha, ht, hx, hC, hA, hT⟩ := VarSt.update_ok sq hsq s false c false hc
      (good_check _ false false c hc (Or.inr (Or.inl rfl))) x0 xl h0 hl
    have hg : s.gap c.1.length c.2 false = none := by
      unfold VarSt.gap
      obtain ⟨x, dt⟩ := c
      cases dt with
      | none => simp
      | const k => simp
      | arr l =>
        simp only [goodChunk, Bool.false_eq_true, if_false] at hc
        simp only [hc.2]
        split
        · rw [if_neg (by omega)]
        · rfl
    rw [hg] at hC hA hT
    obtain ⟨s'', hf, h''⟩ := ih (fun c hc => hcs c (by simp [hc])) s' (segs ++ [timed c.1 c.2]) (by
      refine ⟨?_, ?_, ?_, ?_⟩
      · intro i j; simp [ha, hC, hs.acc, gapTerm]
      · intro i; simp [ha, hA, hs.avg, gapTerm]
      · simp [ha]
      · simp [hT, hs.tlen])
    exact ⟨s'', by simp only [VarSt.feed, hu, hf], by simpa [List.append_assoc] using h''⟩

/-- Mean over separate signals, weighted by their durations. -/
def tmeanSep (f : Row F d → F) (segs : List (List (F × Row F d))) : F :=
  (segs.map (trapz f)).sum / (segs.map duration).sum

/-- **C47**, without time dependence: only the time inside the chunks counts. Missing: as for
`vartime_correct_partial`, and arrays as long as the chunk, whose first number is counted (see
`gap_counted_anyway`). -/
theorem vartime_separate_partial (sq : F → F) (hsq : ∀ a, 0 ≤ a → sq a * sq a = a)
    (cs : List (List (Row F d) × Dt F)) (hne : cs ≠ []) (hcs : ∀ c ∈ cs, goodChunk false c)
    (segs : List (List (F × Row F d))) (hsegs : segs = cs.map fun c => timed c.1 c.2)
    (h2 : (segs.map duration).sum ≠ 0) :
    ∃ s m avg s', (VarSt.new F d).feed sq false cs = (.ok (), s)
      ∧ s.fix true = .ok ((m, avg, (segs.map duration).sum), s')
      ∧ (∀ i, avg i = tmeanSep (fun a => a i) segs)
      ∧ (∀ i j, m i j = tmeanSep (fun a => (a i - avg i) * (a j - avg j)) segs) := by
  obtain ⟨s, hf, hs⟩ := holdsSep_feed sq hsq cs hcs (VarSt.new F d) []
    ⟨by intro i j; simp [VarSt.new], by intro i; simp [VarSt.new], by simp, by simp [VarSt.new]⟩
  rw [List.nil_append, ← hsegs] at hs
  have hlin : ∀ (f g : Row F d → F) (a b : F), (segs.map (trapz fun x => a * f x + b * g x)).sum
      = a * (segs.map (trapz f)).sum + b * (segs.map (trapz g)).sum := by
    intro f g a b
    clear hsegs hs h2
    induction segs with
    | nil => simp
    | cons x l ih => simp only [List.map_cons, List.sum_cons, ih, trapz_linear]; ring
  have hone : (segs.map (trapz fun _ => (1 : F))).sum = (segs.map duration).sum := by
    congr 1; exact List.map_congr_left fun l _ => trapz_one l
  have hne' : segs ≠ [] := by rw [hsegs]; simpa using hne
  cases ha : s.acc with
  | none => exact absurd ha (hs.some hne')
  | some p =>
    obtain ⟨C, A⟩ := p
    have hC := hs.acc; have hA := hs.avg
    rw [ha] at hC hA
    obtain ⟨m, avg, s', hfix, h3, h4⟩ := fix_of_sums s (fun f => (segs.map (trapz f)).sum) C A hlin ha hC hA
      (by rw [hone, hs.tlen]) (by rw [hone]; exact h2)
    simp only [hone] at hfix h3 h4
    exact ⟨s, m, avg, s', hf, hfix, h3, h4⟩

/-- The hypotheses of `vartime_correct_partial` and `vartime_separate_partial` can be met: real numbers, two chunks,
uneven increments. -/
example : (∀ a : ℝ, 0 ≤ a → Real.sqrt a * Real.sqrt a = a)
    ∧ goodChunk false (([![1], ![2], ![4]] : List (Row ℝ 1)), Dt.arr [1, 3])
    ∧ goodChunk true (([![1], ![5]] : List (Row ℝ 1)), Dt.arr [2, 1])
    ∧ duration (timed ([![1], ![2], ![4]] : List (Row ℝ 1)) (Dt.arr [1, 3])
        ++ timed ([![1], ![5]] : List (Row ℝ 1)) (Dt.arr [2, 1])) = 7 := by
  refine ⟨fun a => Real.mul_self_sqrt, ?_, ?_, ?_⟩
  · simp [goodChunk]
  · simp [goodChunk]
  · simp [timed, duration]; norm_num

/-- **C47**: which calls of `update` are refused; a refused increment changes nothing. -/
theorem vartime_rejects (sq : F → F) (s : VarSt F d) (x : List (Row F d)) (dt : Dt F) (td : Bool) :
    ((s.update sq x dt td).1 = .ok () ↔ x ≠ [] ∧ match dt with
      | .none => True
      | .const k => 0 < k
      | .arr l => l.length = x.length ∨ (l.length + 1 = x.length ∧ (td = false ∨ s.tchunk = 0)))
    ∧ (x ≠ [] → (s.update sq x dt td).1 ≠ .ok () → (s.update sq x dt td).2 = s) := by
  have hk : s.check x.length dt td = none ↔ match dt with
      | .none => True
      | .const k => 0 < k
      | .arr l => l.length = x.length ∨ (l.length + 1 = x.length ∧ (td = false ∨ s.tchunk = 0)) := by
    cases dt with
    | none => simp [VarSt.check]
    | const k => simp [VarSt.check]
    | arr l =>
      simp only [VarSt.check]
      cases td <;> (split <;> [skip; split]) <;> simp_all <;> omega
  rw [← hk]
  unfold VarSt.update
  cases hc : s.check x.length dt td with
  | some e => simp
  | none =>
    cases x with
    | nil => simp
    | cons a l => simp [List.getLast?_cons]

/-! ## Where the property fails -/

/-- **C47 fails** for a chunk of one row: its increment is counted twice. -/
theorem single_row_wrong (sq : ℚ → ℚ) :
    let c1 : List (Row ℚ 1) × Dt ℚ := ([![1], ![2]], .arr [1])
    let c2 : List (Row ℚ 1) × Dt ℚ := ([![3]], .arr [1])
    (∃ s m avg s', (VarSt.new ℚ 1).feed sq true [c1, c2] = (.ok (), s) ∧ s.fix true = .ok ((m, avg, 3), s'))
    ∧ duration (timed c1.1 c1.2 ++ timed c2.1 c2.2) = 2 := by
  refine ⟨?_, ?_⟩
  · simp [VarSt.feed, VarSt.update, VarSt.check, VarSt.new, VarSt.gap, VarSt.fix, stepSum, steps]
    norm_num
  · simp [timed, duration]; norm_num

/-- **C47 fails** for a second data set: after `fix`, the time between the last row of the first data set and the
first row of the second is counted. -/
theorem fix_keeps_last (sq : ℚ → ℚ) :
    ∃ s r s', (VarSt.new ℚ 1).feed sq true [([![1], ![2]], .none)] = (.ok (), s) ∧ s.fix true = .ok (r, s')
      ∧ (∃ s'' m avg s3, s'.feed sq true [([![1], ![2]], .none)] = (.ok (), s'')
          ∧ s''.fix true = .ok ((m, avg, 2), s3))
      ∧ (s'.feed sq true [([![1], ![2]], .arr [1])]).1 = .error .needFull := by
  simp [VarSt.feed, VarSt.update, VarSt.check, VarSt.new, VarSt.gap, VarSt.fix, stepSum]
  norm_num

/-- **C47 fails** without time dependence if the array is as long as the chunk: the first number is counted although
`time_dep` is false. -/
theorem gap_counted_anyway (sq : ℚ → ℚ) :
    ∃ s m avg s', (VarSt.new ℚ 1).feed sq false [([![1], ![2]], .arr [1]), ([![1], ![2]], .arr [5, 1])] = (.ok (), s)
      ∧ s.fix true = .ok ((m, avg, 7), s') := by
  simp [VarSt.feed, VarSt.update, VarSt.check, VarSt.new, VarSt.gap, VarSt.fix, stepSum, steps]
  norm_num

end Mdp.Cov
