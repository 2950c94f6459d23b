import Verif.Online.Stats
import Verif.Num.CovProps
import Mathlib.Algebra.Module.Pi
import Mathlib.Tactic.FinCases

/-!
# Properties of online centering and time differences (C107, C108)
-/

namespace Mdp.OnlineStats

open Mdp.Cov

variable {F : Type} [Field F] {d : Nat}

/-! ### Specification -/

/-- The mean of the rows, by components. -/
def meanRow (l : List (Row F d)) : Row F d := fun i => mean (l.map fun r => r i)

/-- The exponentially weighted average: the sample `k` steps before the last has weight `α (1 - α)^k`, the first one has
the rest of the weight. -/
def expAvg (α : F) : List (Row F d) → Row F d
  | [] => 0
  | x :: xs => (1 - α) ^ xs.length • x + (xs.zipIdx.map fun p => (α * (1 - α) ^ (xs.length - 1 - p.2)) • p.1).sum

/-- The average of the samples that a node with this `avg_n` should know. -/
def avgOf (n : Option Nat) (l : List (Row F d)) : Row F d := match n with
  | none => meanRow l
  | some n => expAvg (2 / ((n : F) + 1)) l

/-- A sequence of `train` calls, none of which raises. -/
def trains (s : CSt F d) : List (List (Row F d)) → Option (CSt F d)
  | [] => some s
  | c :: cs => (s.train c).bind fun s => trains s cs

/-! ### Proofs: centering -/

theorem row_fields (s : CSt F d) (x : Row F d) : (s.row x).avgN = s.avgN ∧ (s.row x).iter = s.iter + 1 ∧
    (s.row x).started = s.started ∧ (s.row x).stopped = s.stopped := ⟨rfl, rfl, rfl, rfl⟩

theorem fold_fields (l : List (Row F d)) (s : CSt F d) : (l.foldl CSt.row s).avgN = s.avgN ∧
    (l.foldl CSt.row s).iter = s.iter + l.length ∧ (l.foldl CSt.row s).started = s.started ∧
    (l.foldl CSt.row s).stopped = s.stopped := by
  induction l generalizing s with
  | nil => exact ⟨rfl, rfl, rfl, rfl⟩
  | cons x l ih =>
    obtain ⟨h1, h2, h3, h4⟩ := ih (s.row x)
    refine ⟨h1, ?_, h3, h4⟩
    rw [List.foldl_cons, h2, (row_fields s x).2.1, List.length_cons]
    omega

/-- The average as a fold. -/
theorem fold_avg (l : List (Row F d)) (s : CSt F d) (h : s.avg.isSome = true) :
    ((l.foldl CSt.row s).avg).isSome = true := by
  induction l generalizing s with
  | nil => exact h
  | cons x l ih => exact ih _ rfl

theorem mean_step [CharZero F] (l : List (Row F d)) (x : Row F d) :
    (1 - 1 / ((l.length : F) + 1)) • meanRow l + (1 / ((l.length : F) + 1)) • x = meanRow (l ++ [x]) := by
  funext i
  have h1 : (l.length : F) + 1 ≠ 0 := by exact_mod_cast Nat.succ_ne_zero l.length
  simp only [meanRow, mean, Pi.add_apply, Pi.smul_apply, smul_eq_mul, List.map_append, List.map_cons, List.map_nil,
    List.sum_append, List.sum_cons, List.sum_nil, List.length_append, List.length_map, List.length_cons, List.length_nil]
  push_cast
  cases l with
  | nil => simp
  | cons a l =>
    have h2 : ((a :: l).length : F) ≠ 0 := by simp only [List.length_cons]; exact_mod_cast Nat.succ_ne_zero l.length
    field_simp
    ring

theorem smul_sum (c : F) (l : List (Row F d)) : (l.map (c • ·)).sum = c • l.sum := by
  induction l with
  | nil => simp
  | cons a l ih => simp only [List.map_cons, List.sum_cons, ih, smul_add]

theorem exp_step (α : F) (l : List (Row F d)) (h : l ≠ []) (x : Row F d) :
    (1 - α) • expAvg α l + α • x = expAvg α (l ++ [x]) := by
  cases l with
  | nil => exact absurd rfl h
  | cons a l =>
    simp only [expAvg, List.cons_append, List.length_append, List.length_cons, List.length_nil, List.zipIdx_append,
      List.map_append, List.sum_append, List.zipIdx_cons, List.zipIdx_nil, List.map_cons, List.map_nil, List.sum_cons,
      List.sum_nil, add_zero, zero_add]
    have h1 : (l.zipIdx.map fun p => (α * (1 - α) ^ (l.length + 1 - 1 - p.2)) • p.1) =
        (l.zipIdx.map fun p => (α * (1 - α) ^ (l.length - 1 - p.2)) • p.1).map ((1 - α) • ·) := by
      rw [List.map_map]
      refine List.map_congr_left fun p hp => ?_
      have := List.snd_lt_of_mem_zipIdx hp
      simp only [Function.comp_def, smul_smul]
      congr 1
      have : l.length + 1 - 1 - p.2 = (l.length - 1 - p.2) + 1 := by omega
      rw [this, pow_succ]
      ring
    rw [h1, smul_sum, smul_add, smul_smul, pow_succ]
    simp only [Nat.add_sub_cancel, Nat.sub_self, pow_zero, mul_one, add_assoc]
    congr 2
    ring

theorem row_avg [CharZero F] (s : CSt F d) (l : List (Row F d)) (x : Row F d) (hi : s.iter = l.length)
    (ha : l ≠ [] → s.avg = some (avgOf s.avgN l)) : (s.row x).avg = some (avgOf s.avgN (l ++ [x])) := by
  simp only [CSt.row, Option.some.injEq]
  by_cases hl : l = []
  · subst hl
    have h1 : s.alpha = 1 := by
      simp only [CSt.alpha, hi]
      cases s.avgN <;> simp
    rw [h1]
    cases s.avgN with
    | none => funext i; simp [avgOf, meanRow, mean]
    | some n => simp [avgOf, expAvg]
  · rw [ha hl]
    have hlen : l.length > 0 := List.length_pos_iff.2 hl
    cases hn : s.avgN with
    | none =>
      simp only [CSt.alpha, hn, hi, Option.getD_some, avgOf]
      exact mean_step l x
    | some n =>
      simp only [CSt.alpha, hn, hi, hlen, if_true, Option.getD_some, avgOf]
      exact exp_step _ l hl x

theorem fold_avg_eq [CharZero F] (x : List (Row F d)) (s : CSt F d) (l : List (Row F d)) (hi : s.iter = l.length)
    (ha : l ≠ [] → s.avg = some (avgOf s.avgN l)) :
    l ++ x ≠ [] → (x.foldl CSt.row s).avg = some (avgOf s.avgN (l ++ x)) := by
  induction x generalizing s l with
  | nil => simpa using ha
  | cons r x ih =>
    intro _
    have h1 := ih (s.row r) (l ++ [r]) (by simp [CSt.row, hi]) (fun _ => row_avg s l r hi ha)
    simp only [List.append_assoc, List.singleton_append] at h1
    exact h1 (by simp)

theorem trains_eq [CharZero F] (cs : List (List (Row F d))) (s s' : CSt F d) (l : List (Row F d)) (hi : s.iter = l.length)
    (ha : l ≠ [] → s.avg = some (avgOf s.avgN l)) (h : trains s cs = some s') :
    s'.iter = (l ++ cs.flatten).length ∧ s'.avgN = s.avgN ∧ (cs ≠ [] → s'.started = true) ∧
    (l ++ cs.flatten ≠ [] → s'.avg = some (avgOf s.avgN (l ++ cs.flatten))) := by
  induction cs generalizing s l with
  | nil => cases h; simp [hi]; exact ha
  | cons c cs ih =>
    simp only [trains, CSt.train] at h
    split at h
    · cases h
    · simp only [Option.bind_some] at h
      obtain ⟨f1, f2, f3, f4⟩ := fold_fields c { s.check with started := true }
      have h1 := ih _ (l ++ c) (by rw [f2]; simp [CSt.check, hi]) (by
        intro hne
        rw [f1]
        have := fold_avg_eq c { s.check with started := true } l hi (fun hl => by simp [CSt.check, ha hl]) hne
        exact this) h
      rw [f1] at h1
      simp only [List.append_assoc, CSt.check] at h1
      refine ⟨by simpa using h1.1, h1.2.1, fun _ => ?_, by simpa using h1.2.2.2⟩
      cases cs with
      | nil => cases h; exact f3
      | cons c' cs => exact h1.2.2.1 (by simp)

/-- C107. Whatever the chunks, after training with at least one sample the average is the mean of all samples, or with
`avg_n` the exponentially weighted average of all samples. -/
theorem centering_average [CharZero F] (n : Option Nat) (cs : List (List (Row F d))) (s : CSt F d)
    (h : trains { avgN := n } cs = some s) (hne : cs.flatten ≠ []) :
    s.avg = some (avgOf n cs.flatten) := by
  have h1 := trains_eq cs ({ avgN := n } : CSt F d) s [] rfl (by simp) h
  simp only [List.nil_append] at h1
  rw [h1.2.2.2 hne]

/-- The weights of the exponentially weighted average add up to one: the average of equal samples is that sample. -/
theorem expAvg_const (α : F) (n : Nat) (x : Row F d) : expAvg α (List.replicate (n + 1) x) = x := by
  induction n with
  | zero => simp [expAvg]
  | succ n ih =>
    rw [List.replicate_succ', ← exp_step α _ (by simp) x, ih, ← add_smul]
    simp

/-- C107. After training with at least two samples `execute` subtracts the average and does not change the node. -/
theorem centering_execute_partial [CharZero F] (n : Option Nat) (cs : List (List (Row F d))) (s : CSt F d)
    (h : trains { avgN := n } cs = some s) (hlen : 2 ≤ cs.flatten.length) (x : List (Row F d)) :
    s.execute x = (x.map fun r => r - s.avg.getD 0, s) := by
  have h1 := trains_eq cs ({ avgN := n } : CSt F d) s [] rfl (by simp) h
  simp only [List.nil_append] at h1
  have hne : cs.flatten ≠ [] := by intro h; rw [h] at hlen; simp at hlen
  have hcs : cs ≠ [] := by rintro rfl; simp at hne
  have hck : s.check = s := by
    simp only [CSt.check, h1.2.2.2 hne]
    have := h1.2.2.2 hne
    obtain ⟨a, b, c, e, f⟩ := s
    simp only at this ⊢
    rw [this]
    rfl
  simp only [CSt.execute, h1.2.2.1 hcs, Bool.not_true, Bool.and_false, Bool.false_eq_true, if_false, hck]
  rw [if_neg (by omega)]

/-- C107, violated: after training with one sample `execute` returns its input as it is, although the average is known
and is that sample. -/
theorem centering_first_sample [CharZero F] (n : Option Nat) (a : Row F d) (s : CSt F d)
    (h : trains { avgN := n } [[a]] = some s) (x : List (Row F d)) : s.avg = some a ∧ (s.execute x).1 = x := by
  have h0 := centering_average n [[a]] s h (by simp)
  have h1 := trains_eq [[a]] ({ avgN := n } : CSt F d) s [] rfl (by simp) h
  have h2 : s.iter = 1 := h1.1
  refine ⟨?_, ?_⟩
  · rw [h0]
    cases n with
    | none => simp only [Option.some.injEq]; funext i; simp [avgOf, meanRow, mean]
    | some n => simp [avgOf, expAvg]
  · simp only [CSt.execute, h1.2.2.1 (by simp), Bool.not_true, Bool.and_false, Bool.false_eq_true, if_false]
    simp [CSt.check, h2]

/-- C107. In every state `inverse` undoes `execute`, and the other way round. -/
theorem centering_inverse (s : CSt F d) (x : List (Row F d)) :
    (s.execute x).2.inverse (s.execute x).1 = x ∧
    ((s.started = true ∨ s.stopped = true) → ((s.execute x).2.execute (s.inverse x)).1 = x) := by
  constructor
  · simp only [CSt.execute]
    generalize (CSt.check (if (!s.stopped && !s.started) = true then x.foldl CSt.row { s.check with started := true } else s)) = t
    by_cases h : t.iter ≤ 1
    · simp [CSt.inverse, h]
    · simp [CSt.inverse, h, Function.comp_def]
  · intro h
    have hc : (!s.stopped && !s.started) = false := by rcases h with h | h <;> simp [h]
    have hc' : (!s.check.stopped && !s.check.started) = false := hc
    simp only [CSt.execute, hc, Bool.false_eq_true, if_false, hc']
    by_cases hi : s.iter ≤ 1
    · simp [CSt.inverse, CSt.check, hi]
    · simp [CSt.inverse, CSt.check, hi, Function.comp_def]

/-- C107. Training after `stop_training` is refused; before it is accepted. -/
theorem centering_stop (s : CSt F d) (x : List (Row F d)) : (s.train x = none ↔ s.stopped = true) ∧
    (∀ s', s.stop = some s' → s'.train x = none ∧ s'.avg = s.avg) := by
  refine ⟨?_, fun s' h => ?_⟩
  · simp only [CSt.train]
    split <;> simp_all
  · simp only [CSt.stop] at h
    split at h
    · cases h
    · cases h; exact ⟨rfl, rfl⟩

/-- Three samples in two chunks. -/
example : (trains ({ avgN := none } : CSt ℚ 1) [[![1], ![2]], [![6]]]).map (·.avg) = some (some ![3]) := by
  have h : trains ({ avgN := none } : CSt ℚ 1) [[![1], ![2]], [![6]]] = some _ := rfl
  rw [h, Option.map_some, centering_average none _ _ h (by simp)]
  congr 2
  funext i
  fin_cases i
  norm_num [avgOf, meanRow, mean]

/-! ### Proofs: time differences -/

/-- A sequence of `train` calls. -/
def dtrains (s : DSt F d) (cs : List (List (Row F d))) : DSt F d := cs.foldl DSt.train s

/-- Differences of consecutive rows. -/
def diffs (prev : Row F d) : List (Row F d) → List (Row F d)
  | [] => []
  | x :: xs => (x - prev) :: diffs x xs

theorem diffs_eq (prev : Row F d) (x : List (Row F d)) :
    List.zipWith (fun a b => a - b) x ((prev :: x).take x.length) = diffs prev x := by
  induction x generalizing prev with
  | nil => rfl
  | cons a x ih =>
    simp only [List.length_cons, List.take_succ_cons, List.zipWith_cons_cons, diffs]
    rw [ih a]

/-- The buffers after incremental training: the last two samples. -/
theorem fold_step (c : List (Row F d)) (s : DSt F d) (hs : s.bufs.isSome = true) :
    let s' := c.foldl (fun s r => s.step [r]) s
    s'.incremental = s.incremental ∧ s'.started = s.started ∧
    s'.bufs = some (match c.reverse with
      | [] => s.bufs.getD ([], [])
      | [a] => ((s.bufs.getD ([], [])).2, [a])
      | b :: a :: _ => ([a], [b])) := by
  induction c generalizing s with
  | nil =>
    obtain ⟨b, hb⟩ := Option.isSome_iff_exists.1 hs
    simp [hb]
  | cons x c ih =>
    obtain ⟨h1, h2, h3⟩ := ih (s.step [x]) rfl
    simp only [List.foldl_cons]
    refine ⟨h1, h2, ?_⟩
    rw [h3]
    simp only [DSt.step, Option.getD_some, List.reverse_cons]
    rcases hr : c.reverse with _ | ⟨b, _ | ⟨a, r⟩⟩ <;> rfl

/-- The last two samples, zeros before the first. -/
def lastTwo (l : List (Row F d)) : Row F d × Row F d := match l.reverse with
  | [] => (0, 0)
  | [a] => (0, a)
  | b :: a :: _ => (a, b)

/-- The shape of the buffers: as many zero rows as the first chunk had, until two samples have been seen. -/
theorem dtrains_eq (c : List (Row F d)) (cs : List (List (Row F d))) :
    let s := dtrains ({} : DSt F d) (c :: cs)
    let l := (c :: cs).flatten
    s.incremental = true ∧ s.started = true ∧ s.bufs = some (match l.reverse with
      | [] => (c.map fun _ => 0, c.map fun _ => 0)
      | [a] => (c.map fun _ => 0, [a])
      | b :: a :: _ => ([a], [b])) := by
  have key : ∀ (cs : List (List (Row F d))) (s : DSt F d) (l : List (Row F d)), s.incremental = true → s.started = true →
      s.bufs = some (match l.reverse with
        | [] => (c.map fun _ => 0, c.map fun _ => 0)
        | [a] => (c.map fun _ => 0, [a])
        | b :: a :: _ => ([a], [b])) →
      let s' := dtrains s cs
      s'.incremental = true ∧ s'.started = true ∧ s'.bufs = some (match (l ++ cs.flatten).reverse with
        | [] => (c.map fun _ => 0, c.map fun _ => 0)
        | [a] => (c.map fun _ => 0, [a])
        | b :: a :: _ => ([a], [b])) := by
    intro cs
    induction cs with
    | nil => intro s l h1 h2 h3; simp [dtrains, h1, h2, h3]
    | cons x cs ih =>
      intro s l h1 h2 h3
      have htr : s.train x = x.foldl (fun s r => s.step [r]) s := by
        have : ({ s.check x with started := true } : DSt F d) = s := by
          obtain ⟨b, i, t⟩ := s
          simp only at h2 h3
          simp [DSt.check, h2, h3]
        have hi : (s.check x).incremental = true := h1
        show (if (s.check x).incremental = true then _ else _) = _
        rw [if_pos hi]
        exact congrArg (List.foldl (fun s r => s.step [r]) · x) this
      obtain ⟨k1, k2, k3⟩ := fold_step x s (by rw [h3]; rfl)
      have := ih (s.train x) (l ++ x) (by rw [htr, k1, h1]) (by rw [htr, k2, h2]) (by
        rw [htr, k3, h3, List.reverse_append]
        rcases hx : x.reverse with _ | ⟨b, _ | ⟨a, r⟩⟩
        · rfl
        · rcases hl : l.reverse with _ | ⟨b', _ | ⟨a', r'⟩⟩ <;> simp
        · rfl)
      simp only [dtrains, List.foldl_cons] at this ⊢
      rw [List.flatten_cons, ← List.append_assoc]
      exact this
  have htr : ({} : DSt F d).train c = c.foldl (fun s r => s.step [r])
      { bufs := some (c.map fun _ => 0, c.map fun _ => 0), incremental := true, started := true } := rfl
  obtain ⟨k1, k2, k3⟩ := fold_step c ({ bufs := some (c.map fun _ => 0, c.map fun _ => 0), started := true } : DSt F d) rfl
  have := key cs (({} : DSt F d).train c) c (by rw [htr, k1]) (by rw [htr, k2]) (by
    rw [htr, k3]
    rcases hx : c.reverse with _ | ⟨b, _ | ⟨a, r⟩⟩ <;> rfl)
  exact this

/-- C108. With incremental training, after samples `…, a, b` in any chunks `execute` gives the differences of consecutive
rows of its input, the first one to `a`: if its input continues the signal from the last sample on, these are the time
differences. After a single sample (the first chunk having one row) the predecessor is zero. -/
theorem timediff_partial (c : List (Row F d)) (cs : List (List (Row F d))) (x : List (Row F d)) :
    (∀ l a b, (c :: cs).flatten = l ++ [a, b] →
      (dtrains ({} : DSt F d) (c :: cs)).execute x = (diffs a x, dtrains ({} : DSt F d) (c :: cs))) ∧
    (∀ a, c = [a] → cs.flatten = [] →
      (dtrains ({} : DSt F d) (c :: cs)).execute x = (diffs 0 x, dtrains ({} : DSt F d) (c :: cs))) := by
  obtain ⟨h1, h2, h3⟩ := dtrains_eq c cs
  generalize dtrains ({} : DSt F d) (c :: cs) = s at h1 h2 h3
  have key : ∀ p q : Row F d, ∀ q', s.bufs = some ([p], q') → s.execute x = (diffs p x, s) := by
    intro p q q' hb
    have hck : s.check x = s := by
      obtain ⟨b, i, t⟩ := s
      simp only at hb
      simp [DSt.check, hb]
    simp only [DSt.execute, h2, Bool.not_true, Bool.false_eq_true, if_false, hck, hb, Option.getD_some,
      List.singleton_append, List.drop_succ_cons, List.drop_zero, List.length_cons, Nat.add_sub_cancel]
    rw [diffs_eq]
  constructor
  · intro l a b hl
    refine key a b [b] ?_
    rw [h3, hl]
    simp
  · rintro a rfl hcs
    refine key 0 a [a] ?_
    rw [h3, List.flatten_cons, hcs]
    simp

/-- C108, violated: with batch training the first call of `execute` after the first chunk returns too many rows unless
the chunk has one row. -/
theorem timediff_batch_rows (c x : List (Row F d)) :
    ((({ incremental := false } : DSt F d).train c).execute x).1.length = c.length + x.length - 1 := by
  simp [DSt.train, DSt.check, DSt.step, DSt.execute]
  try omega

/-- C108, violated: with batch training later chunks make `execute` subtract the last sample of the chunk before the
last one, instead of the last but one sample. -/
theorem timediff_batch_pred (c : List (Row F d)) (l : List (Row F d)) (a : Row F d) (c2 : List (Row F d)) (y : Row F d)
    (hc : c = l ++ [a]) : (((({ incremental := false } : DSt F d).train c).train c2).execute [y]).1 = [y - a] := by
  subst hc
  simp [DSt.train, DSt.check, DSt.step, DSt.execute]

/-- The documented protocol, sample by sample and in blocks. -/
example (x1 x2 x3 x4 x5 : Row F d) :
    ((dtrains ({} : DSt F d) [[x1]]).execute [x1]).1 = [x1 - 0] ∧
    ((dtrains ({} : DSt F d) [[x1], [x2]]).execute [x2]).1 = [x2 - x1] ∧
    ((dtrains ({} : DSt F d) [[x1, x2, x3]]).execute [x3, x4, x5]).1 = [x3 - x2, x4 - x3, x5 - x4] := by
  refine ⟨?_, ?_, ?_⟩
  · rw [(timediff_partial [x1] [] _).2 x1 rfl rfl]; rfl
  · rw [(timediff_partial [x1] [[x2]] _).1 [] x1 x2 rfl]; rfl
  · rw [(timediff_partial [x1, x2, x3] [] _).1 [x1] x2 x3 rfl]; rfl

end Mdp.OnlineStats
