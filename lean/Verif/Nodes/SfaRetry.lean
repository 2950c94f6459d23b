import Verif.Utils.Ldl
import Verif.Utils.Reg
import Verif.Utils.SymeigSfa

/-!
# `SFANode`: another try of `stop_training` after a failure (mdp/nodes/sfa_nodes.py 135-152, 183-205, 263-318), C347

When the solver of the eigenvalue problem fails or gives negative eigenvalues, the node keeps its matrices; the documentation
tells the user to choose another method for rank deficits (`set_rank_deficit_method`) and to call `stop_training` again.

`Mdp.Sfa.St.stop` lets the solver leave the matrices alone.  Here a solver also gives the matrices as they are after the call
(`ESolver`); `reg` and `ldl` do change them.  The routines of the numerical library themselves are taken to leave their
arguments as they are.
-/

namespace Mdp.Sfa

open Mdp.Cov Mdp.Join Mdp.Symeig

variable {F : Type} [Field F] [LinearOrder F] {d n : Nat}

/-- A solver with the two matrices as they are after the call. -/
abbrev ESolver (F : Type) (d : Nat) := Mat F d d → Mat F d d → Option (Nat × Nat) → Option (List (F × Row F d)) × Mat F d d × Mat F d d

/-- A solver that leaves the matrices alone: `symeig`, `symeig_semidefinite_pca`, `symeig_semidefinite_svd`
(mdp/utils/_symeig.py 70-167, mdp/utils/symeig_semidefinite.py 311-456). -/
def keep (f : Solver F d) : ESolver F d := fun A B rng => (f A B rng, A, B)

/-- `symeig_semidefinite_reg`: the diagonal of `B` is raised before the call of `symeig` and put back after it, but not when the
call raises (mdp/utils/symeig_semidefinite.py 97-106). -/
def regE (E : Env F) (thr : F) (old : Nat) : ESolver F d := fun A B rng =>
  (asSolver (E.reg thr old) A B rng, A, match E.fake A (regular thr B) none with
    | .error _ => regular thr B
    | .ok _ => B)

/-- `symeig_semidefinite_ldl` with `overwrite=True`, as the node calls it: `A` itself is permuted, unless blank data were cut out
before (mdp/utils/symeig_semidefinite.py 203-207, 282-284). -/
def ldlE (E : Env F) (L : Lapack F) (thr : F) : ESolver F (n + 1) := fun A B rng =>
  (asSolver (E.ldl L thr) A B rng, match blank thr B with
    | some _ => A
    | none => match pivLoop (L.sytrf (n + 1) B).2 (List.finRange (n + 1)) ⟨false, id, fun _ => 0⟩ with
      | .error _ => A
      | .ok p => fun i => scatter (swapLoop p (L.sytrf (n + 1) B).1).2 (scatter (swapLoop p (L.sytrf (n + 1) B).1).2 A i), B)

/-- The part of `_stop_training` after the matrices are known (277-318). -/
def St.solveE (solver : ESolver F d) (s : St F d) (f : Fixed F d) : Except Err Unit × St F d :=
  match setRange d s.outDim with
  | .error e => (.error e, s)
  | .ok (rng, k) =>
    let r := solver f.dcov f.cov rng
    let s := { s with outDim := some k, fixed := some ⟨r.2.2, f.avg, r.2.1⟩ }
    match r.1 with
    | none => (.error .symeig, s)
    | some l =>
      if l.any (fun p => p.1 < 0) then (.error .negative, s)
      else (.ok (), { s with
        fixed := none
        res := some ⟨l.map (·.1), l.map (·.2), l.map (fun p => dotL f.avg p.2), f.avg⟩ })

/-- `_stop_training` (263-318), `debug=False`. -/
def St.stopE (solver : ESolver F d) (s : St F d) : Except Err Unit × St F d :=
  match s.acc with
  | none => match s.fixed with
    | none => (.error .attribute, s)
    | some f => s.solveE solver f
  | some a => match a.cov.fix true with
    | .error _ => (.error .noneType, s)
    | .ok ((cov, avg, _), _) => match a.dcov.fix false with
      | .error _ => (.error .noneType, s)
      | .ok ((dcov, _, _), _) =>
        { s with acc := none, fixed := some ⟨cov, avg, dcov⟩ : St F d }.solveE solver ⟨cov, avg, dcov⟩

/-- Calls of `stop_training`, each after the choice of a method: the outcomes and the node after them. -/
def St.tries (s : St F d) : List (ESolver F d) → List (Except Err Unit) × St F d
  | [] => ([], s)
  | f :: fs => let r := s.stopE f; let q := r.2.tries fs; (r.1 :: q.1, q.2)

/-! ## Specification -/

/-- To ask for all components by their number is the same as not to ask for a number. -/
def FullRange (f : Solver F d) : Prop := ∀ A B, f A B (some (1, d)) = f A B none

/-- The library gives at most as many pairs as the matrix has columns. -/
def Counts (E : Env F) : Prop := (∀ d A l, E.eigh d A = some l → l.length ≤ d) ∧ ∀ d A l, E.svd d A = some l → l.length ≤ d

/-! ## Proofs -/

theorem solveE_keep (f : Solver F d) (s : St F d) (x : Fixed F d) (hx : s.fixed = some x) : s.solveE (keep f) x = s.solve f x := by
  obtain ⟨a, fx, o, r⟩ := s
  simp only at hx
  subst hx
  simp only [St.solveE, St.solve, keep]
  cases setRange d o with
  | error e => rfl
  | ok p => rfl

theorem stopE_keep (f : Solver F d) (s : St F d) : s.stopE (keep f) = s.stop f := by
  unfold St.stopE St.stop
  cases ha : s.acc with
  | none =>
    simp only
    cases hf : s.fixed with
    | none => rfl
    | some x => exact solveE_keep f s x hf
  | some a =>
    simp only
    rcases a.cov.fix true with e | ⟨⟨c, v, t⟩, q⟩
    · rfl
    · simp only
      rcases a.dcov.fix false with e | ⟨⟨c', v', t'⟩, q'⟩
      · rfl
      · exact solveE_keep f _ _ rfl

/-- After a failed try the next one is as if the failed one had not been. -/
theorem solve_again (f : Solver F d) (hf : FullRange f) (g : Solver F d) (s : St F d) (x : Fixed F d) (ha : s.acc = none) (hx : s.fixed = some x)
    (e : Err) (hg : (s.solve g x).1 = .error e) :
    (s.solve g x).2.acc = none ∧ (s.solve g x).2.fixed = some x ∧ (s.solve g x).2.solve f x = s.solve f x := by
  obtain ⟨a, fx, o, r⟩ := s
  simp only at ha hx
  subst ha hx
  cases o with
  | none =>
    simp only [St.solve, setRange] at hg ⊢
    cases h : g x.dcov x.cov none with
    | none => simp [hf x.dcov x.cov]
    | some l =>
      rw [h] at hg
      simp only at hg ⊢
      split at hg
      · rename_i h0; simp [h0, hf x.dcov x.cov]
      · cases hg
  | some k =>
    simp only [St.solve, setRange] at hg ⊢
    by_cases hk : k ≤ d
    · simp only [if_pos hk] at hg ⊢
      cases h : g x.dcov x.cov (some (1, k)) with
      | none => simp [hk]
      | some l =>
        rw [h] at hg
        simp only at hg ⊢
        split at hg
        · rename_i h0; simp [h0, hk]
        · cases hg
    · simp [hk]

theorem tries_fixed (f : Solver F d) (hf : FullRange f) (gs : List (Solver F d)) : ∀ (s : St F d) (x : Fixed F d), s.acc = none → s.fixed = some x →
    (∀ r ∈ (s.tries (gs.map keep)).1, r ≠ .ok ()) → (s.tries (gs.map keep)).2.stop f = s.stop f := by
  induction gs with
  | nil => intro s x _ _ _; rfl
  | cons g gs ih =>
    intro s x ha hx h
    simp only [List.map_cons, St.tries, List.mem_cons, forall_eq_or_imp] at h ⊢
    have hs : ∀ g : Solver F d, s.stop g = s.solve g x := fun g => by simp only [St.stop, ha, hx]
    rw [stopE_keep, hs] at h ⊢
    obtain ⟨h1, h2⟩ := h
    cases he : (s.solve g x).1 with
    | ok u => cases u; exact absurd he h1
    | error e =>
      obtain ⟨a1, a2, a3⟩ := solve_again f hf g s x ha hx e he
      rw [ih _ x a1 a2 h2, hs, ← a3]
      simp only [St.stop, a1, a2]

variable [IsStrictOrderedRing F]

/-- **C347.** After any training and any number of failed calls of `stop_training` with methods that leave the matrices alone
(`none`, `pca`, `svd`, `auto`), a call with another method does what it would have done as the first one: it has the same
outcome and leaves the node in the same state. -/
theorem sfa_tries (incl : Bool) (out : Option Nat) (cs : List (Call F d)) (h2 : ∀ c ∈ cs, 2 ≤ c.1.length)
    (hn : 2 ≤ (samples incl cs).length) (hm : 2 ≤ (changes id cs).length) (failed : List (Solver F d))
    (hfail : ∀ r ∈ ((trained incl out cs).tries (failed.map keep)).1, r ≠ .ok ()) (f : Solver F d) (hf : FullRange f) :
    ((trained incl out cs).tries (failed.map keep)).2.stopE (keep f) = (trained incl out cs).stopE (keep f) := by
  rw [stopE_keep, stopE_keep]
  cases failed with
  | nil => rfl
  | cons g gs =>
    simp only [List.map_cons, St.tries, List.mem_cons, forall_eq_or_imp] at hfail ⊢
    rw [stopE_keep] at hfail ⊢
    obtain ⟨h3, h4⟩ := hfail
    obtain ⟨avg, _, hs⟩ := stop_trained incl out cs h2 hn hm g
    obtain ⟨avg', h5, hs'⟩ := stop_trained incl out cs h2 hn hm f
    rename_i ha
    have : avg' = avg := funext fun i => by rw [h5, ha]
    subst this
    rw [hs] at h3 h4 ⊢
    rw [hs']
    set x : Fixed F d := ⟨Pca.covOf (samples incl cs), avg', moment cs⟩
    set s : St F d := { acc := none, fixed := some x, outDim := out }
    cases he : (s.solve g x).1 with
    | ok u => cases u; exact absurd he h3
    | error e =>
      obtain ⟨a1, a2, a3⟩ := solve_again f hf g s x rfl rfl e he
      rw [tries_fixed f hf gs _ x a1 a2 h4, ← a3]
      simp only [St.stop, a1, a2]

/-! ### The solvers -/

omit [Field F] [LinearOrder F] [IsStrictOrderedRing F] in
theorem slice_all {α : Type} (l : List α) (h : l.length ≤ d) : slice (1, d) l = l := by
  simp [slice, List.take_of_length_le h]

omit [Field F] [LinearOrder F] [IsStrictOrderedRing F] in
theorem slice_clamp {α : Type} (m : Nat) (l : List α) (h : l.length ≤ m) (hd : l.length ≤ d) : slice (clampRange m (1, d)) l = l := by
  have key : ∀ a b : Nat, a ≤ 1 → l.length ≤ b → slice (a, b) l = l := fun a b ha hb => by
    simp only [slice]
    rw [List.take_of_length_le hb, Nat.sub_eq_zero_of_le ha, List.drop_zero]
  unfold clampRange
  simp only [Nat.lt_irrefl, if_false]
  split_ifs <;> refine key _ _ (by omega) (by omega)

theorem finish_all (m e : Nat) (l : List (F × Row F e)) (h : l.length ≤ m) (hd : l.length ≤ d) : finish m (some (1, d)) l = finish m none l := by
  simp only [finish]
  exact slice_clamp m _ (by rwa [List.length_insertionSort]) (by rwa [List.length_insertionSort])

/-- `symeig` (`rank_deficit_method='none'`). -/
theorem plain_full (E : Env F) (hE : Counts E) : FullRange (E.plain : Solver F d) := by
  intro A B
  unfold Env.plain Env.fake
  cases hB : E.eigh d B with
  | none => rfl
  | some l =>
    simp only
    split_ifs with h0
    · rfl
    · cases hA : E.eigh (E.scale l).length (colsForm A (E.scale l)) with
      | none => rfl
      | some m =>
        simp only
        have h1 := hE.1 d B l hB
        have h2 := hE.1 _ _ m hA
        have h3 : (E.scale l).length = l.length := by simp [Env.scale]
        rw [finish_all d d _ (by rw [List.length_map]; omega) (by rw [List.length_map]; omega)]

theorem std_full (E : Env F) (hE : Counts E) {e : Nat} (he : e ≤ d) (A : Mat F e e) : E.std A (some (1, d)) = E.std A none := by
  unfold Env.std
  cases h : E.eigh e A with
  | none => rfl
  | some l =>
    have := hE.1 e A l h
    simp only
    rw [finish_all e e l this (by omega)]

theorem pcaCore_full (E : Env F) (hE : Counts E) (thr : F) {e : Nat} (he : e ≤ d) (A B : Mat F e e) :
    E.pcaCore thr (some (1, d)) e A B = E.pcaCore thr none e A B := by
  unfold Env.pcaCore
  cases h : E.std B none with
  | error x => rfl
  | ok l =>
    simp only [Env.pcaTail]
    split_ifs with h0
    · rfl
    · have hl : l.length ≤ e := by
        unfold Env.std at h
        cases hb : E.eigh e B with
        | none => rw [hb] at h; cases h
        | some l' =>
          rw [hb] at h
          simp only [Except.ok.injEq] at h
          subst h
          simpa [finish] using hE.1 e B l' hb
      have hk := (List.dropWhile_sublist (fun p : F × Row F e => decide (p.1 < thr)) (l := l)).length_le
      rw [std_full E hE (d := d) (by simp only [Env.scale, List.length_map]; omega)]

theorem withBlank_congr (thr : F) (A B : Mat F (n + 1) (n + 1)) (c c' : (d : Nat) → Mat F d d → Mat F d d → Except Symeig.Err (List (F × Row F d) × Nat))
    (h : ∀ e, e ≤ n + 1 → c e = c' e) : withBlank thr A B c = withBlank thr A B c' := by
  unfold withBlank
  cases hb : blank thr B with
  | none => simp only; rw [h _ (Nat.le_refl _)]
  | some nz =>
    simp only
    have : nz.length ≤ n + 1 := by
      unfold blank at hb
      simp only at hb
      split at hb
      · split at hb
        · simp only [Option.some.injEq] at hb
          subst hb
          have := List.length_filter_le (fun j : Fin (n + 1) => decide (j ∉ (List.finRange (n + 1)).filter fun j =>
            (((List.finRange (n + 1)).filter fun j => |B 0 j| < thr).map fun i => |B i j|).sum /
              (((List.finRange (n + 1)).filter fun j => |B 0 j| < thr).length : F) < thr)) (List.finRange (n + 1))
          rwa [List.length_finRange] at this
        · cases hb
      · cases hb
    rw [h _ this]

/-- `symeig_semidefinite_pca` (`rank_deficit_method='pca'` and `'auto'`). -/
theorem pca_full (E : Env F) (hE : Counts E) (thr : F) : FullRange (asSolver (E.pca thr (n := n))) := by
  intro A B
  unfold asSolver Env.pca
  rw [withBlank_congr thr A B _ _ fun e he => funext fun A => funext fun B => pcaCore_full E hE thr he A B]

theorem svdCore_full (E : Env F) (hE : Counts E) (thr : F) (old : Nat) {e : Nat} (he : e ≤ d) (A B : Mat F e e) :
    E.svdCore thr old (some (1, d)) e A B = E.svdCore thr old none e A B := by
  unfold Env.svdCore
  cases h : E.svd e B with
  | none => rfl
  | some l =>
    simp only [Env.svdTail]
    split_ifs with h0
    · rfl
    all_goals
      have hl := hE.2 e B l h
      cases hs : E.svd (E.scale (List.take (l.length - (List.takeWhile (fun p => decide (p.1 < thr)) l.reverse).length) l)).length
        (colsForm A (E.scale (List.take (l.length - (List.takeWhile (fun p => decide (p.1 < thr)) l.reverse).length) l))) with
      | none => rfl
      | some m =>
        have hm := hE.2 _ _ m hs
        have h3 : (E.scale (List.take (l.length - (List.takeWhile (fun p => decide (p.1 < thr)) l.reverse).length) l)).length ≤ l.length := by
          simp [Env.scale]
        simp only
        rw [slice_all _ (by rw [List.length_reverse, List.length_map]; omega)]

/-- `symeig_semidefinite_svd` (`rank_deficit_method='svd'`). -/
theorem svd_full (E : Env F) (hE : Counts E) (thr : F) (old : Nat) : FullRange (asSolver (E.svdSolve thr old (n := n))) := by
  intro A B
  unfold asSolver Env.svdSolve
  rw [withBlank_congr thr A B _ _ fun e he => funext fun A => funext fun B => svdCore_full E hE thr old he A B]

/-- `symeig_semidefinite_reg` and `symeig_semidefinite_ldl`, for the last try. -/
theorem reg_full (E : Env F) (hE : Counts E) (thr : F) (old : Nat) : FullRange (asSolver (E.reg thr old (d := d))) := by
  intro A B
  unfold asSolver Env.reg
  cases h : E.fake A (regular thr B) none with
  | error e => rfl
  | ok l =>
    have hl : l.length ≤ d := by
      unfold Env.fake at h
      cases hB : E.eigh d (regular thr B) with
      | none => rw [hB] at h; cases h
      | some m =>
        rw [hB] at h
        simp only at h
        split_ifs at h with h0
        cases hA : E.eigh (E.scale m).length (colsForm A (E.scale m)) with
        | none => rw [hA] at h; cases h
        | some q =>
          rw [hA] at h
          simp only [Except.ok.injEq] at h
          subst h
          have h1 := hE.1 _ _ m hB
          have h2 := hE.1 _ _ q hA
          have h3 : (E.scale m).length = m.length := by simp [Env.scale]
          rw [finish, List.length_insertionSort, List.length_map]
          omega
    simp only
    cases hk : E.regKeep old B l with
    | error e => rfl
    | ok q =>
      obtain ⟨k, df⟩ := q
      have : k.length ≤ l.length := by
        unfold Env.regKeep at hk
        simp only at hk
        split_ifs at hk
        all_goals
          simp only [Except.ok.injEq, Prod.mk.injEq] at hk
          obtain ⟨rfl, _⟩ := hk
          first | exact (List.drop_sublist _ _).length_le | exact List.length_filter_le _ _
      simp only
      rw [slice_all k (by omega)]

/-! ### The methods that change the matrices -/

theorem stopE_trained (incl : Bool) (out : Option Nat) (cs : List (Call F d)) (h2 : ∀ c ∈ cs, 2 ≤ c.1.length)
    (hn : 2 ≤ (samples incl cs).length) (hm : 2 ≤ (changes id cs).length) (solver : ESolver F d) :
    ∃ avg, (trained incl out cs).stopE solver =
        ({ acc := none, fixed := some ⟨Pca.covOf (samples incl cs), avg, moment cs⟩, outDim := out } : St F d).solveE solver
          ⟨Pca.covOf (samples incl cs), avg, moment cs⟩ := by
  rw [trained_eq incl out cs h2]
  have hfl : (cs.map fun c => if c.2.getD incl then c.1 else c.1.dropLast).flatten = samples incl cs := by
    rw [samples, List.flatMap_def]
  have hfd : (cs.map fun c => differences c.1).flatten = changes id cs := by
    rw [changes, List.flatMap_def]; simp
  obtain ⟨C, avg, h1, h3, h4⟩ := covariance_correct (F := F) false
    (cs.map fun c => if c.2.getD incl then c.1 else c.1.dropLast) (by rw [hfl]; simpa using hn)
  rw [hfl] at h1 h3 h4
  have hC : C = Pca.covOf (samples incl cs) := by funext i j; exact h3 i j
  subst hC
  have hne : (cs.map fun c => differences c.1) ≠ [] := by
    intro h0
    rw [← hfd, h0] at hm
    simp at hm
  obtain ⟨r1, r2, r3⟩ := CovSt.run_acc (cs.map fun c => differences c.1) (CovSt.new F d false) (Or.inl hne)
  rw [hfd] at r1 r2
  refine ⟨avg, ?_⟩
  simp only [St.stopE, h1]
  generalize (cs.map fun c => differences c.1).foldl CovSt.update (CovSt.new F d false) = dc at r1 r2 r3
  obtain ⟨da, dt, db⟩ := dc
  simp only [CovSt.new, Option.getD_none, zero_add] at r1 r2 r3
  subst r1; subst r2; subst r3
  have hmm : divM (multT (changes id cs) (changes id cs)) (((changes id cs).length : F) - 1) = moment cs := by
    funext i j
    simp only [divM, moment, multT, List.zipWith_self]
  simp only [CovSt.fix, Bool.false_eq_true, if_false, hmm]

omit [IsStrictOrderedRing F] in
theorem regular_regular (a b : F) (B : Mat F d d) : regular a (regular b B) = regular (a + b) B := by
  funext i j
  simp only [regular]
  split <;> ring

omit [IsStrictOrderedRing F] in
theorem reg_solveE (E : Env F) (thr : F) (old : Nat) (o : Option Nat) (ho : ∀ k, o = some k → k ≤ d) (r : Option (Res F d)) (x : Fixed F d)
    (e : Symeig.Err) (hf : E.fake x.dcov (regular thr x.cov) none = .error e) :
    (⟨none, some x, o, r⟩ : St F d).solveE (regE E thr old) x =
      (.error .symeig, ⟨none, some ⟨regular thr x.cov, x.avg, x.dcov⟩, some (o.getD d), r⟩) := by
  have : ∃ q, setRange d o = .ok (q, o.getD d) := by
    cases o with
    | none => exact ⟨_, rfl⟩
    | some k => exact ⟨_, by simp [setRange, ho k rfl]; rfl⟩
  obtain ⟨q, hq⟩ := this
  simp only [St.solveE, hq, regE, hf]
  have : asSolver (E.reg thr old) x.dcov x.cov q = none := by simp only [asSolver, Env.reg, hf]
  rw [this]

omit [IsStrictOrderedRing F] in
theorem reg_tries (E : Env F) (thr : F) (old : Nat) : ∀ (k : Nat) (o : Option Nat) (_ : ∀ k, o = some k → k ≤ d) (r : Option (Res F d)) (x : Fixed F d)
    (_ : ∀ j, 1 ≤ j → j ≤ k → ∃ e, E.fake x.dcov (regular ((j : F) * thr) x.cov) none = .error e),
    (∀ q ∈ ((⟨none, some x, o, r⟩ : St F d).tries (List.replicate k (regE E thr old))).1, q = .error .symeig) ∧
      ((⟨none, some x, o, r⟩ : St F d).tries (List.replicate k (regE E thr old))).2.fixed.map (·.cov) = some (regular ((k : F) * thr) x.cov) := by
  intro k
  induction k with
  | zero =>
    intro o ho r x h
    refine ⟨by simp [St.tries], ?_⟩
    simp only [List.replicate_zero, St.tries, Option.map_some, Nat.cast_zero, zero_mul, Option.some.injEq]
    funext i j
    simp [regular]
  | succ k ih =>
    intro o ho r x h
    obtain ⟨e, he⟩ := h 1 (Nat.le_refl _) (by omega)
    rw [Nat.cast_one, one_mul] at he
    have h1 : (⟨none, some x, o, r⟩ : St F d).stopE (regE E thr old) =
        (.error .symeig, ⟨none, some ⟨regular thr x.cov, x.avg, x.dcov⟩, some (o.getD d), r⟩) := reg_solveE E thr old o ho r x e he
    rw [List.replicate_succ]
    simp only [St.tries, h1]
    obtain ⟨h3, h4⟩ := ih (some (o.getD d)) (fun j hj => by
      cases hj
      cases o with
      | none => simp
      | some m => exact ho m rfl) r ⟨regular thr x.cov, x.avg, x.dcov⟩ (fun j h1 h2 => by
        obtain ⟨e, he⟩ := h (j + 1) (by omega) (by omega)
        refine ⟨e, ?_⟩
        simp only
        rw [regular_regular, ← he]
        congr 2
        push_cast
        ring)
    refine ⟨fun q hq => ?_, ?_⟩
    · rcases List.mem_cons.1 hq with rfl | hq
      · rfl
      · exact h3 q hq
    · rw [h4, regular_regular]
      congr 2
      push_cast
      ring

/-- **C347, false** for `reg`: each failed try with this method leaves the threshold added to the variances, and the next method
is given the matrix so changed. -/
theorem reg_retry_drift (incl : Bool) (out : Option Nat) (ho : ∀ k, out = some k → k ≤ d) (cs : List (Call F d)) (h2 : ∀ c ∈ cs, 2 ≤ c.1.length)
    (hn : 2 ≤ (samples incl cs).length) (hm : 2 ≤ (changes id cs).length) (E : Env F) (thr : F) (old k : Nat)
    (hfail : ∀ j, 1 ≤ j → j ≤ k + 1 → ∃ e, E.fake (moment cs) (regular ((j : F) * thr) (Pca.covOf (samples incl cs))) none = .error e) :
    (∀ r ∈ ((trained incl out cs).tries (List.replicate (k + 1) (regE E thr old))).1, r = .error .symeig) ∧
    ((trained incl out cs).tries (List.replicate (k + 1) (regE E thr old))).2.fixed.map (·.cov) =
      some fun i j => Pca.covOf (samples incl cs) i j + if i = j then ((k + 1 : Nat) : F) * thr else 0 := by
  obtain ⟨avg, hs⟩ := stopE_trained incl out cs h2 hn hm (regE E thr old)
  set x : Fixed F d := ⟨Pca.covOf (samples incl cs), avg, moment cs⟩ with hx
  have h0 : (trained incl out cs).tries (List.replicate (k + 1) (regE E thr old)) =
      (⟨none, some x, out, none⟩ : St F d).tries (List.replicate (k + 1) (regE E thr old)) := by
    rw [List.replicate_succ]
    simp only [St.tries]
    rw [hs]
    rfl
  obtain ⟨h3, h4⟩ := reg_tries E thr old (k + 1) out ho none x hfail
  rw [h0]
  refine ⟨h3, h4.trans ?_⟩
  congr 1
  funext i j
  simp only [regular, hx]
  split <;> simp

theorem ldl_retry_keeps (incl : Bool) (out : Option Nat) (ho : ∀ k, out = some k → k ≤ n + 1) (cs : List (Call F (n + 1)))
    (h2 : ∀ c ∈ cs, 2 ≤ c.1.length) (hn : 2 ≤ (samples incl cs).length) (hm : 2 ≤ (changes id cs).length) (E : Env F) (L : Lapack F) (thr : F)
    (hfail : ((trained incl out cs).stopE (ldlE E L thr)).1 ≠ .ok ()) :
    ((trained incl out cs).stopE (ldlE E L thr)).2.fixed.map (fun f => (f.cov, f.dcov)) =
      some (Pca.covOf (samples incl cs), (ldlE E L thr (moment cs) (Pca.covOf (samples incl cs)) none).2.1) := by
  obtain ⟨avg, hs⟩ := stopE_trained incl out cs h2 hn hm (ldlE E L thr)
  rw [hs] at hfail ⊢
  have : ∃ q, setRange (n + 1) out = .ok (q, out.getD (n + 1)) := by
    cases out with
    | none => exact ⟨_, rfl⟩
    | some k => exact ⟨_, by simp [setRange, ho k rfl]; rfl⟩
  obtain ⟨q, hq⟩ := this
  simp only [St.solveE, hq] at hfail ⊢
  cases h : (ldlE E L thr (moment cs) (Pca.covOf (samples incl cs)) q).1 with
  | none => rfl
  | some l =>
    rw [h] at hfail
    simp only at hfail ⊢
    split_ifs at hfail ⊢ with h0
    · rfl
    · exact absurd rfl hfail

/-- **C347**: a call with `reg` that fails after the solver itself has succeeded (the search for the rank runs out of the list, or the method finds no
positive delta) has put the variances back: the next method is given the matrices of the data. -/
theorem reg_retry_restored (incl : Bool) (out : Option Nat) (ho : ∀ k, out = some k → k ≤ d) (cs : List (Call F d)) (h2 : ∀ c ∈ cs, 2 ≤ c.1.length)
    (hn : 2 ≤ (samples incl cs).length) (hm : 2 ≤ (changes id cs).length) (E : Env F) (thr : F) (old : Nat) (l : List (F × Row F d))
    (hok : E.fake (moment cs) (regular thr (Pca.covOf (samples incl cs))) none = .ok l)
    (hfail : ((trained incl out cs).stopE (regE E thr old)).1 ≠ .ok ()) :
    ((trained incl out cs).stopE (regE E thr old)).2.fixed.map (fun f => (f.cov, f.dcov)) = some (Pca.covOf (samples incl cs), moment cs) := by
  obtain ⟨avg, hs⟩ := stopE_trained incl out cs h2 hn hm (regE E thr old)
  rw [hs] at hfail ⊢
  have : ∃ q, setRange d out = .ok (q, out.getD d) := by
    cases out with
    | none => exact ⟨_, rfl⟩
    | some k => exact ⟨_, by simp [setRange, ho k rfl]; rfl⟩
  obtain ⟨q, hq⟩ := this
  have hB : (regE E thr old (moment cs) (Pca.covOf (samples incl cs)) q).2 = (moment cs, Pca.covOf (samples incl cs)) := by simp only [regE, hok]
  simp only [St.solveE, hq, hB] at hfail ⊢
  cases h : (regE E thr old (moment cs) (Pca.covOf (samples incl cs)) q).1 with
  | none => rfl
  | some l =>
    rw [h] at hfail
    simp only at hfail ⊢
    split_ifs at hfail ⊢ with h0
    · rfl
    · exact absurd rfl hfail

/-! ## Cases -/

/-- One signal: 0, 20, 40. -/
def driftData : List (Call ℚ 1) := [([![0], ![20], ![40]], none)]

/-- A library that fails for the number 1296 and knows some square roots. -/
def driftEnv : Env ℚ where
  eigh
    | 0, _ => some []
    | 1, M => if M 0 0 = 1296 then none else some [(M 0 0, ![1])]
    | _, _ => none
  svd := fun _ _ => none
  sqrt x := if x = 625 then 25 else if x = 1521 then 39 else if x = 16 / 25 then 4 / 5 else if x = 1296 / 1521 then 36 / 39 else 1

/-- The filters of a node, as lists. -/
def filters (s : St ℚ d) : Option (List (List ℚ)) := s.res.map fun r => r.sf.map List.ofFn

/-- **C347, false** for `reg`: a try with a threshold for which the library fails changes the filters a later try gives, without
any sign of it. -/
theorem reg_retry_violation :
    ((trained true none driftData).tries [regE driftEnv 896 0]).1.map (fun r => match r with | .ok _ => true | .error _ => false) = [false] ∧
    filters ((trained true none driftData).stopE (regE driftEnv 225 0)).2 = some [[1 / 25]] ∧
    filters ((trained true none driftData).tries [regE driftEnv 896 0, regE driftEnv 225 0]).2 = some [[1 / 39]] := by
  refine ⟨?_, ?_, ?_⟩ <;> decide +kernel

/-- A constant signal: the solver succeeds, and then no direction counts as one of the data (`reg_retry_restored`). -/
def flatData : List (Call ℚ 1) := [([![3], ![3], ![3]], none)]

def flatEnv : Env ℚ := { driftEnv with sqrt := fun x => if x = 16 then 4 else 0 }

example : (match flatEnv.fake (moment flatData) (regular 16 (Pca.covOf (samples true flatData))) none with | .ok _ => true | .error _ => false) = true := by
  decide +kernel

example : (match ((trained true none flatData).stopE (regE flatEnv 16 0)).1 with | .ok _ => true | .error _ => false) = false := by decide +kernel

/-- Two signals. -/
def permData : List (Call ℚ 2) := [([![0, 0], ![1, 3], ![2, 0], ![3, 3]], none)]

/-- LAPACK interchanges the two rows of every matrix; the library for eigenvalues fails. -/
def permEnv : Env ℚ := ⟨fun _ _ => none, fun _ _ => none, id⟩

def permLapack : Lapack ℚ where
  sytrf _ B := (B, fun _ => 2)
  trtri _ B := B

/-- **C347, false** for `ldl`: a failed try leaves the moments of the changes with the two signals exchanged, the covariances as
they were. -/
theorem ldl_retry_violation :
    ((trained true none permData).tries [ldlE permEnv permLapack (1 / 100)]).1.map (fun r => match r with | .ok _ => true | .error _ => false) = [false] ∧
    ((trained true none permData).tries [ldlE permEnv permLapack (1 / 100)]).2.fixed.map (fun f => (f.cov, f.dcov)) =
      some (Pca.covOf (samples true permData), fun i j => moment permData (1 - i) (1 - j)) ∧
    (moment permData) 0 0 ≠ moment permData 1 1 := by
  refine ⟨?_, ?_, ?_⟩ <;> decide +kernel

/-- All hypotheses of `sfa_tries` are met: `symeig` fails (the library does not know the matrix), then `pca` succeeds. -/
example : (∀ c ∈ exRank, 2 ≤ c.1.length) ∧ 2 ≤ (samples true exRank).length ∧ 2 ≤ (changes id exRank).length ∧
    (∀ r ∈ ((trained true none exRank).tries ([fun _ _ _ => none].map keep)).1, r ≠ .ok ()) ∧
    FullRange (asSolver (exEnv.pca 1 (n := 1))) ∧
    filters (((trained true none exRank).tries ([fun _ _ _ => none].map keep)).2.stopE (keep (asSolver (exEnv.pca 1)))).2 ≠ none := by
  refine ⟨by decide +kernel, by decide +kernel, by decide +kernel, ?_, pca_full _ ?_ _, by decide +kernel⟩
  · intro r hr h0
    subst h0
    have : (((trained true none exRank).tries ([fun _ _ _ => none].map keep)).1.map fun r => match r with | .ok _ => true | .error _ => false) = [false] := by
      decide +kernel
    have h1 := List.mem_map_of_mem (f := fun r : Except Err Unit => match r with | .ok _ => true | .error _ => false) hr
    rw [this] at h1
    simp at h1
  · constructor
    · intro d A l h
      simp only [exEnv] at h
      split at h
      · cases h; simp
      · cases h; simp
      · split at h <;> cases h; simp
      · cases h
    · intro d A l h
      simp only [exEnv] at h
      split at h
      · cases h; simp
      · cases h; simp
      · split at h <;> cases h; simp
      · cases h

/-- A drift over three tries. -/
example : ∀ j : Nat, 1 ≤ j → j ≤ 2 + 1 → ∃ e, permEnv.fake (moment permData) (regular ((j : ℚ) * 1) (Pca.covOf (samples true permData))) none = .error e :=
  fun _ _ _ => ⟨_, rfl⟩

end Mdp.Sfa
