import Verif.Parallel.NodeJoin
import Verif.Num.CovProps
import Mathlib.Algebra.Group.Pi.Basic

/-!
# Parallel training gathers the same statistics as sequential training (C44)
-/

namespace Mdp.Join

open Cov

/-! ## The common argument -/

section generic

variable {S X E : Type}

/-- If joining a fork trained with some chunks equals training with those chunks, and the order of training chunks does
not matter, then chunks can be given to forks in any way and the forks joined in any order. -/
theorem fork_join_generic (good : X → Prop) (t : S → X → S) (join : S → S → Except E S) (Inv : S → Prop)
    (f0 : S) (hinv : ∀ p x, Inv p → Inv (t p x))
    (hcomm : ∀ p x y, t (t p x) y = t (t p y) x)
    (hj : ∀ p, Inv p → ∀ j : List X, j ≠ [] → (∀ x ∈ j, good x) → join p (j.foldl t f0) = .ok (j.foldl t p))
    (jobs jobs' : List (List X)) (hperm : jobs'.Perm jobs) (hne : ∀ j ∈ jobs, j ≠ []) (hg : ∀ j ∈ jobs, ∀ x ∈ j, good x)
    (p : S) (hp : Inv p) :
    (jobs'.map fun j => j.foldl t f0).foldlM join p = .ok (jobs.flatten.foldl t p) := by
  have hrun : ∀ (js : List (List X)) (p : S), Inv p → (∀ j ∈ js, j ≠ []) → (∀ j ∈ js, ∀ x ∈ j, good x) →
      (js.map fun j => j.foldl t f0).foldlM join p = .ok (js.flatten.foldl t p) := by
    intro js
    induction js with
    | nil => intros; rfl
    | cons j js ih =>
      intro p hp h1 h2
      rw [List.map_cons, List.foldlM_cons, hj p hp j (h1 j (by simp)) (h2 j (by simp))]
      rw [List.flatten_cons, List.foldl_append]
      refine ih _ ?_ (fun j hj => h1 j (by simp [hj])) (fun j hj => h2 j (by simp [hj]))
      clear h1 h2 ih
      induction j generalizing p with
      | nil => exact hp
      | cons x j ih => exact ih _ (hinv p x hp)
  rw [hrun jobs' p hp (fun j hj => hne j (hperm.mem_iff.mp hj)) (fun j hj => hg j (hperm.mem_iff.mp hj))]
  congr 1
  exact (hperm.flatten).foldl_eq' (fun x _ y _ p => hcomm p x y) p

theorem foldlM_ok (good : X → Prop) (train : S → X → Except E S) (t : S → X → S)
    (h : ∀ p x, good x → train p x = .ok (t p x)) (xs : List X) (hg : ∀ x ∈ xs, good x) (p : S) :
    xs.foldlM train p = .ok (xs.foldl t p) := by
  induction xs generalizing p with
  | nil => rfl
  | cons x xs ih =>
    rw [List.foldlM_cons, h p x (hg x (by simp))]
    exact ih (fun x hx => hg x (by simp [hx])) _

theorem mapM_ok {A B : Type} (f : A → Except E B) (g : A → B) (l : List A) (h : ∀ a ∈ l, f a = .ok (g a)) :
    l.mapM f = .ok (l.map g) := by
  induction l with
  | nil => rfl
  | cons a l ih =>
    rw [List.mapM_cons, h a (by simp), ih fun a ha => h a (by simp [ha])]
    rfl

/-- The same for training methods that may raise. -/
theorem fork_join_except (good : X → Prop) (train : S → X → Except E S) (t : S → X → S)
    (join : S → S → Except E S) (Inv : S → Prop)
    (f0 : S) (ht : ∀ p x, good x → train p x = .ok (t p x)) (hinv : ∀ p x, Inv p → Inv (t p x))
    (hcomm : ∀ p x y, t (t p x) y = t (t p y) x)
    (hj : ∀ p, Inv p → ∀ j : List X, j ≠ [] → (∀ x ∈ j, good x) → join p (j.foldl t f0) = .ok (j.foldl t p))
    (jobs jobs' : List (List X)) (hperm : jobs'.Perm jobs) (hne : ∀ j ∈ jobs, j ≠ []) (hg : ∀ j ∈ jobs, ∀ x ∈ j, good x)
    (p : S) (hp : Inv p) :
    ∃ forks q, (jobs'.mapM fun j => j.foldlM train f0) = .ok forks ∧ forks.foldlM join p = .ok q
      ∧ jobs.flatten.foldlM train p = .ok q := by
  refine ⟨_, _, mapM_ok _ (fun j => j.foldl t f0) _ ?_,
    fork_join_generic good t join Inv f0 hinv hcomm hj jobs jobs' hperm hne hg p hp, ?_⟩
  · intro j hj'
    exact foldlM_ok good train t ht j (hg j (hperm.mem_iff.mp hj')) f0
  · refine foldlM_ok good train t ht _ ?_ p
    intro x hx
    obtain ⟨j, hj', hx⟩ := List.mem_flatten.mp hx
    exact hg j hj' x hx

end generic

variable {F : Type} [Field F] {d : Nat}

/-! ## Covariance accumulators -/

/-- Nothing accumulated yet means nothing counted. -/
def CovInv (s : CovSt F d) : Prop := (s.acc = none → s.tlen = 0) ∧ s.bias = false

theorem covInv_update (s : CovSt F d) (x : List (Row F d)) (h : CovInv s) : CovInv (s.update x) :=
  ⟨by simp [CovSt.update], h.2⟩

theorem update_comm (s : CovSt F d) (x y : List (Row F d)) : (s.update x).update y = (s.update y).update x := by
  simp only [CovSt.update, Option.getD_some]
  congr 1
  · rw [add_right_comm, add_right_comm _ (colSum x)]
  · omega

theorem pca_join_run (s : CovSt F d) (hs : CovInv s) (j : List (List (Row F d))) (hne : j ≠ []) :
    pcaJoin s (j.foldl CovSt.update (CovSt.new F d false)) = .ok (j.foldl CovSt.update s) := by
  obtain ⟨h1, h2, h3⟩ := CovSt.run_acc j (CovSt.new F d false) (Or.inl hne)
  obtain ⟨g1, g2, g3⟩ := CovSt.run_acc j s (Or.inl hne)
  generalize j.foldl CovSt.update (CovSt.new F d false) = f at *
  generalize j.foldl CovSt.update s = q at *
  obtain ⟨fa, ft, fb⟩ := f
  obtain ⟨qa, qt, qb⟩ := q
  obtain ⟨sa, st, sb⟩ := s
  obtain ⟨hs1, hs2⟩ := hs
  simp only [CovSt.new, Option.getD_none, zero_add] at *
  subst h1 h2 h3 g1 g2 g3 hs2
  cases sa with
  | none => simp [pcaJoin, hs1 rfl]
  | some a => simp [pcaJoin, joinCov]

/-- **C44**, PCANode: the chunks can be given to forks in any way and the forks joined in any order; the node ends up
as if it had been trained with all the chunks itself. `prior`: what it was trained with before. -/
theorem pca_fork_join (prior : List (List (Row F d))) (jobs jobs' : List (List (List (Row F d))))
    (hperm : jobs'.Perm jobs) (hne : ∀ j ∈ jobs, j ≠ []) :
    (jobs'.map fun j => j.foldl pcaTrain (pcaFork F d)).foldlM pcaJoin (prior.foldl pcaTrain (pcaFork F d))
      = .ok ((prior ++ jobs.flatten).foldl pcaTrain (pcaFork F d)) := by
  rw [List.foldl_append]
  refine fork_join_generic (fun _ => True) pcaTrain pcaJoin CovInv (pcaFork F d) covInv_update update_comm
    (fun p hp j hj _ => pca_join_run p hp j hj) jobs jobs' hperm hne (by simp) _ ?_
  have : ∀ s : CovSt F d, CovInv s → CovInv (prior.foldl pcaTrain s) := by
    induction prior with
    | nil => exact fun s h => h
    | cons x l ih => exact fun s h => ih _ (covInv_update s x h)
  exact this _ ⟨fun _ => rfl, rfl⟩

/-- Two forks, joined in the other order. -/
example : (∀ j ∈ [[[![1], ![2]], [![3]]], [[![(4 : ℚ)]]]], j ≠ [])
    ∧ [[[![(4 : ℚ)]]], [[![1], ![2]], [![3]]]].Perm [[[![1], ![2]], [![3]]], [[![4]]]] :=
  ⟨by simp, List.Perm.swap _ _ _⟩

/-- A fork that was given nothing cannot be joined into a node that was trained. -/
theorem pca_untrained_fork (x : List (Row F d)) :
    pcaJoin (pcaTrain (pcaFork F d) x) (pcaFork F d) = .error .noneType := by
  simp [pcaJoin, pcaTrain, CovSt.update, joinCov, pcaFork, CovSt.new]

/-! ## SFANode -/

/-- The rows used for the covariance matrix. -/
def sfaRows (incl : Bool) (x : List (Row F d)) : List (Row F d) := if incl then x else x.dropLast

/-- Training with a chunk long enough. -/
def sfaT (s : SfaSt F d) (x : List (Row F d)) : SfaSt F d :=
  ⟨s.cov.update (sfaRows s.incl x), s.dcov.update (timeDerivative x), s.incl⟩

theorem sfaTrain_ok (s : SfaSt F d) (x : List (Row F d)) (h : 2 ≤ x.length) : sfaTrain s x = .ok (sfaT s x) := by
  simp [sfaTrain, sfaT, sfaRows, show ¬ x.length < 2 by omega]

theorem sfaT_run (s : SfaSt F d) (j : List (List (Row F d))) :
    j.foldl sfaT s = ⟨(j.map (sfaRows s.incl)).foldl CovSt.update s.cov,
      (j.map timeDerivative).foldl CovSt.update s.dcov, s.incl⟩ := by
  induction j generalizing s with
  | nil => rfl
  | cons x j ih => rw [List.foldl_cons, ih]; rfl

def SfaInv (incl : Bool) (s : SfaSt F d) : Prop :=
  CovInv s.cov ∧ CovInv s.dcov ∧ s.incl = incl ∧ (s.cov.acc = none ↔ s.dcov.acc = none)

theorem sfa_join_run (incl : Bool) (s : SfaSt F d) (hs : SfaInv incl s) (j : List (List (Row F d))) (hne : j ≠ []) :
    sfaJoin s (j.foldl sfaT (sfaNew F d incl)) = .ok (j.foldl sfaT s) := by
  obtain ⟨h1, h2, rfl, h4⟩ := hs
  rw [sfaT_run, sfaT_run]
  simp only [sfaNew]
  have e1 := pca_join_run s.cov h1 (j.map (sfaRows s.incl)) (by simpa using hne)
  have e2 := pca_join_run s.dcov h2 (j.map timeDerivative) (by simpa using hne)
  simp only [pcaJoin] at e1 e2
  unfold sfaJoin
  cases hc : s.cov.acc with
  | none =>
    rw [h4] at hc
    rw [hc] at e2
    rw [h4.mpr hc] at e1
    simp only [Except.ok.injEq] at e1 e2
    dsimp only
    rw [e1, e2]
  | some a =>
    cases hd : s.dcov.acc with
    | none => rw [h4.mpr hd] at hc; cases hc
    | some b =>
      rw [hc] at e1
      rw [hd] at e2
      simp only at e1 e2
      dsimp only
      rw [e1, e2]

/-- **C44**, SFANode: as for PCANode, for chunks of at least two rows. -/
theorem sfa_fork_join (incl : Bool) (prior : List (List (Row F d))) (jobs jobs' : List (List (List (Row F d))))
    (hperm : jobs'.Perm jobs) (hne : ∀ j ∈ jobs, j ≠ []) (h2 : ∀ x ∈ prior ++ jobs.flatten, 2 ≤ x.length) :
    ∃ p forks q, prior.foldlM (sfaTrain · ·) (sfaNew F d incl) = .ok p
      ∧ (jobs'.mapM fun j => j.foldlM (sfaTrain · ·) (sfaFork p)) = .ok forks
      ∧ forks.foldlM sfaJoin p = .ok q
      ∧ (prior ++ jobs.flatten).foldlM (sfaTrain · ·) (sfaNew F d incl) = .ok q := by
  have hp := foldlM_ok (fun x : List (Row F d) => 2 ≤ x.length) (sfaTrain · ·) sfaT sfaTrain_ok prior
    (fun x hx => h2 x (by simp [hx])) (sfaNew F d incl)
  have hinv : SfaInv incl (prior.foldl sfaT (sfaNew F d incl)) := by
    have : ∀ s : SfaSt F d, SfaInv incl s → SfaInv incl (prior.foldl sfaT s) := by
      clear hp h2
      induction prior with
      | nil => exact fun s h => h
      | cons x l ih =>
        exact fun s h => ih _ ⟨covInv_update _ _ h.1, covInv_update _ _ h.2.1, h.2.2.1, by simp [sfaT, CovSt.update]⟩
    exact this _ ⟨⟨fun _ => rfl, rfl⟩, ⟨fun _ => rfl, rfl⟩, rfl, Iff.rfl⟩
  obtain ⟨forks, q, e1, e2, e3⟩ := fork_join_except (fun x : List (Row F d) => 2 ≤ x.length) (sfaTrain · ·) sfaT sfaJoin
    (SfaInv incl) (sfaNew F d incl) sfaTrain_ok
    (fun p x h => ⟨covInv_update _ _ h.1, covInv_update _ _ h.2.1, h.2.2.1, by simp [sfaT, CovSt.update]⟩)
    (fun p x y => by unfold sfaT; dsimp only; rw [update_comm, update_comm p.dcov])
    (fun p hp j hj _ => sfa_join_run incl p hp j hj) jobs jobs' hperm hne
    (fun j hj x hx => h2 x (by simp; exact Or.inr ⟨j, hj, hx⟩)) _ hinv
  have hf : sfaFork (prior.foldl sfaT (sfaNew F d incl)) = sfaNew F d incl := by
    rw [sfaFork, hinv.2.2.1]
  refine ⟨_, forks, q, hp, by rw [hf]; exact e1, e2, ?_⟩
  rw [List.foldlM_append, hp]
  exact e3

/-- The chunks that SFANode refuses, with no effect. -/
theorem sfa_rejects (s : SfaSt F d) (x : List (Row F d)) (incl : Option Bool) :
    sfaTrain s x incl = .error .short ↔ x.length < 2 := by
  unfold sfaTrain
  split <;> simp_all

/-! ### Overlapping chunks (C79) -/

theorem timeDerivative_cons (a b : Row F d) (l : List (Row F d)) :
    timeDerivative (a :: b :: l) = (b - a) :: timeDerivative (b :: l) := by
  simp [timeDerivative]

theorem timeDerivative_append (a : Row F d) (l : List (Row F d)) (b : Row F d) (r : List (Row F d)) :
    timeDerivative (a :: l ++ b :: r) = timeDerivative (a :: l ++ [b]) ++ timeDerivative (b :: r) := by
  induction l generalizing a with
  | nil => simp [timeDerivative_cons]; simp [timeDerivative]
  | cons c l ih =>
    have := ih c
    simp only [List.cons_append, timeDerivative_cons] at this ⊢
    rw [this]

/-- Cut a signal starting with `a` into pieces so that every piece begins with the last sample of the one before. -/
def overlap {α : Type} (a : α) : List (List α) → List (List α)
  | [] => []
  | p :: ps => (a :: p) :: overlap (p.getLast?.getD a) ps

theorem update_append (s : CovSt F d) (x y : List (Row F d)) : (s.update x).update y = s.update (x ++ y) := by
  simp only [CovSt.update, Option.getD_some, multT_append _ _ _ _ rfl, colSum_append, add_assoc, List.length_append,
    Nat.add_assoc]

/-- **C79**: a signal cut into overlapping pieces, with the last sample of every piece left out of the covariance
matrix, trains SFANode like the whole signal in one piece: every sample but the last counts once and every derivative
counts once. -/
theorem sfa_overlapping_chunks (a : Row F d) (pieces : List (List (Row F d))) (hne : pieces ≠ [])
    (h : ∀ p ∈ pieces, p ≠ []) (s : SfaSt F d) :
    ∃ q, (overlap a pieces).foldlM (sfaTrain · · (some false)) s = .ok q
      ∧ sfaTrain s (a :: pieces.flatten) (some false) = .ok q := by
  have hstep : ∀ (s : SfaSt F d) (x : List (Row F d)), 2 ≤ x.length → sfaTrain s x (some false)
      = .ok ⟨s.cov.update x.dropLast, s.dcov.update (timeDerivative x), s.incl⟩ := by
    intro s x hx; simp [sfaTrain, show ¬ x.length < 2 by omega]
  induction pieces generalizing a s with
  | nil => exact absurd rfl hne
  | cons p ps ih =>
    have hp := h p (by simp)
    have hp1 := List.length_pos_of_ne_nil hp
    rw [overlap, List.foldlM_cons, hstep s _ (by simp; omega)]
    by_cases hps : ps = []
    · subst hps
      exact ⟨_, rfl, by simp only [List.flatten_cons, List.flatten_nil, List.append_nil]; rw [hstep]; simp; omega⟩
    · obtain ⟨q, h1, h2⟩ := ih (p.getLast?.getD a) hps (fun p hp => h p (by simp [hp]))
        ⟨s.cov.update (a :: p).dropLast, s.dcov.update (timeDerivative (a :: p)), s.incl⟩
      refine ⟨q, h1, ?_⟩
      rw [← h2]
      obtain ⟨l, b, rfl⟩ : ∃ l b, p = l ++ [b] := by
        rcases List.eq_nil_or_concat p with rfl | ⟨l, b, rfl⟩
        · exact absurd rfl hp
        · exact ⟨l, b, by simp⟩
      obtain ⟨p2, ps', rfl⟩ : ∃ p2 ps', ps = p2 :: ps' := by
        cases ps with
        | nil => exact absurd rfl hps
        | cons a b => exact ⟨a, b, rfl⟩
      have hp2 := h p2 (by simp)
      have hp3 := List.length_pos_of_ne_nil hp2
      rw [hstep, hstep]
      · simp only [update_append, List.getLast?_append, List.getLast?_singleton, Option.some_or, Option.getD_some]
        have e1 : a :: ((l ++ [b]) :: p2 :: ps').flatten = a :: l ++ b :: (p2 :: ps').flatten := by simp
        have e2 : a :: (l ++ [b]) = a :: l ++ [b] := rfl
        rw [e1, e2, timeDerivative_append, List.dropLast_append_cons, List.dropLast_concat]
      · simp; omega
      · simp; omega

/-- Four samples, three pieces: the example of the documentation. -/
example : overlap 1 [[2], [3], [4]] = [[1, 2], [2, 3], [3, 4]] := rfl

/-! ## HistogramNode -/

variable {L : Type} [DecidableEq L] {M : Type}

theorem hist_run (s : Option (List (Row F d))) (j : List (List (Row F d))) (h : j ≠ [] ∨ s ≠ none) :
    j.foldl histTrain s = some (s.getD [] ++ j.flatten) := by
  induction j generalizing s with
  | nil => cases s <;> simp_all
  | cons x j ih =>
    rw [List.foldl_cons, ih _ (Or.inr (by cases s <;> simp [histTrain]))]
    cases s <;> simp [histTrain]

theorem hist_joins (fs : List (Option (List (Row F d)))) (s : Option (List (Row F d))) :
    (fs.foldl histJoin s).getD [] = s.getD [] ++ (fs.map fun f => f.getD []).flatten := by
  induction fs generalizing s with
  | nil => simp
  | cons f fs ih =>
    rw [List.foldl_cons, ih]
    cases s <;> cases f <;> simp [histJoin]

/-- **C44**, HistogramNode: joining the forks in their order stores the rows exactly as sequential training, in another
order the same rows as often. -/
theorem hist_fork_join (prior : List (List (Row F d))) (jobs jobs' : List (List (List (Row F d))))
    (hperm : jobs'.Perm jobs) :
    (((jobs.map fun j => j.foldl histTrain none).foldl histJoin (prior.foldl histTrain none)).getD []
      = (((prior ++ jobs.flatten).foldl histTrain none).getD []))
    ∧ (((jobs'.map fun j => j.foldl histTrain none).foldl histJoin (prior.foldl histTrain none)).getD []).Perm
      (((prior ++ jobs.flatten).foldl histTrain none).getD []) := by
  have hr : ∀ j : List (List (Row F d)), (j.foldl histTrain none).getD [] = j.flatten := by
    intro j
    by_cases hj : j = []
    · subst hj; rfl
    · rw [hist_run none j (Or.inl hj)]; rfl
  have h1 : ∀ js : List (List (List (Row F d))),
      ((js.map fun j => j.foldl histTrain none).foldl histJoin (prior.foldl histTrain none)).getD []
        = prior.flatten ++ js.flatten.flatten := by
    intro js
    rw [hist_joins, hr, List.map_map]
    congr 1
    induction js with
    | nil => rfl
    | cons j js ih => simp only [List.map_cons, List.flatten_cons, Function.comp, hr, List.flatten_append]; rw [← ih]
  rw [h1, h1, hr, List.flatten_append]
  exact ⟨rfl, (hperm.flatten.flatten).append_left _⟩

/-! ## Nodes with one accumulator per label -/

/-- Merge two optional values. -/
def oplus (op : M → M → M) : Option M → Option M → Option M
  | some a, some b => some (op a b)
  | none, b => b
  | a, none => a

theorem oplus_assoc (op : M → M → M) (h : ∀ a b c, op (op a b) c = op a (op b c)) (x y z : Option M) :
    oplus op (oplus op x y) z = oplus op x (oplus op y z) := by
  cases x <;> cases y <;> cases z <;> simp [oplus, h]

theorem oplus_comm (op : M → M → M) (h : ∀ a b, op a b = op b a) (x y : Option M) : oplus op x y = oplus op y x := by
  cases x <;> cases y <;> simp [oplus, h]

@[simp] theorem oplus_none_right (op : M → M → M) (x : Option M) : oplus op x none = x := by cases x <;> rfl
@[simp] theorem oplus_none_left (op : M → M → M) (x : Option M) : oplus op none x = x := by cases x <;> rfl

/-- What a chunk contributes to a label. -/
def contrib (f : List (Row F d) → M) (c : List (Row F d) × Labels L) (k : L) : Option M :=
  ((groups c.1 c.2).lookup k).map f

theorem groups_nodup (x : List (Row F d)) (labels : Labels L) : ((groups x labels).map (·.1)).Nodup := by
  cases labels with
  | one l => simp [groups]
  | each ls =>
    simp only [groups, List.map_map, Function.comp_def, List.map_id']
    exact List.nodup_dedup ls

theorem foldl_upd (zero : M) (op : M → M → M) (hz : ∀ a, op zero a = a) (gs : List (L × M))
    (hnd : (gs.map (·.1)).Nodup) (m : L → Option M) (k : L) :
    gs.foldl (fun m g => upd zero op m g.1 g.2) m k = oplus op (m k) (gs.lookup k) := by
  induction gs generalizing m with
  | nil => simp
  | cons g gs ih =>
    obtain ⟨l, v⟩ := g
    simp only [List.map_cons, List.nodup_cons] at hnd
    rw [List.foldl_cons, ih hnd.2]
    by_cases hk : k = l
    · subst hk
      have : gs.lookup k = none := by
        rw [List.lookup_eq_none_iff]
        intro p hp
        simp only [bne_iff_ne, ne_eq, beq_eq_false_iff_ne]
        rintro rfl
        exact hnd.1 (List.mem_map_of_mem hp)
      rw [this, List.lookup_cons_self]
      cases hm : m k <;> simp [upd, hm, oplus, hz]
    · rw [List.lookup_cons, show (k == l) = false by simpa using hk]
      simp [upd, hk]

theorem lookup_map (f : List (Row F d) → M) (gs : List (L × List (Row F d))) (k : L) :
    (gs.map fun g => (g.1, f g.2)).lookup k = (gs.lookup k).map f := by
  induction gs with
  | nil => rfl
  | cons g gs ih =>
    obtain ⟨l, x⟩ := g
    simp only [List.map_cons, List.lookup_cons, ih]
    cases k == l <;> rfl

theorem labTrain_ok (zero : M) (op : M → M → M) (hz : ∀ a, op zero a = a) (f : List (Row F d) → M) (m : L → Option M)
    (c : List (Row F d) × Labels L) (hc : labelsOk c.1 c.2 = true) :
    labTrain zero op f m c.1 c.2 = .ok fun k => oplus op (m k) (contrib f c k) := by
  unfold labTrain
  rw [if_pos hc]
  congr 1
  funext k
  have := foldl_upd zero op hz ((groups c.1 c.2).map fun g => (g.1, f g.2)) (by
    rw [List.map_map]; exact groups_nodup c.1 c.2) m k
  rw [List.foldl_map] at this
  rw [this, lookup_map]
  rfl

theorem labJoin_eq (op : M → M → M) (s f : L → Option M) : labJoin op s f = fun k => oplus op (s k) (f k) := by
  funext k
  unfold labJoin
  cases f k <;> cases s k <;> rfl

def labT (op : M → M → M) (f : List (Row F d) → M) (m : L → Option M) (c : List (Row F d) × Labels L) : L → Option M :=
  fun k => oplus op (m k) (contrib f c k)

theorem labT_run (op : M → M → M) (ha : ∀ a b c, op (op a b) c = op a (op b c)) (f : List (Row F d) → M)
    (j : List (List (Row F d) × Labels L)) (m : L → Option M) (k : L) :
    j.foldl (labT op f) m k = oplus op (m k) (j.foldl (labT op f) (fun _ => none) k) := by
  induction j generalizing m with
  | nil => simp
  | cons c j ih =>
    rw [List.foldl_cons, ih, List.foldl_cons, ih (labT op f (fun _ => none) c)]
    simp only [labT, oplus_none_left, oplus_assoc op ha]

/-- Distribution over forks for nodes with one accumulator per label, joined in order. -/
theorem lab_fork_join_order (zero : M) (op : M → M → M) (hz : ∀ a, op zero a = a)
    (ha : ∀ a b c, op (op a b) c = op a (op b c)) (f : List (Row F d) → M)
    (jobs : List (List (List (Row F d) × Labels L))) (hok : ∀ j ∈ jobs, ∀ c ∈ j, labelsOk c.1 c.2 = true)
    (p : L → Option M) :
    ∃ forks q, (jobs.mapM fun j => j.foldlM (fun m c => labTrain zero op f m c.1 c.2) fun _ => none) = .ok forks
      ∧ forks.foldl (labJoin op) p = q
      ∧ jobs.flatten.foldlM (fun m c => labTrain zero op f m c.1 c.2) p = .ok q := by
  refine ⟨_, _, mapM_ok _ (fun j => j.foldl (labT op f) fun _ => none) _ ?_, rfl, ?_⟩
  · intro j hj
    exact foldlM_ok (fun c => labelsOk c.1 c.2 = true) _ (labT op f)
      (fun m c hc => labTrain_ok zero op hz f m c hc) j (hok j hj) _
  · rw [foldlM_ok (fun c => labelsOk c.1 c.2 = true) _ (labT op f) (fun m c hc => labTrain_ok zero op hz f m c hc)]
    · congr 1
      clear hok
      induction jobs generalizing p with
      | nil => rfl
      | cons j js ih =>
        rw [List.flatten_cons, List.foldl_append, ih, List.map_cons, List.foldl_cons]
        congr 1
        rw [labJoin_eq]
        funext k
        exact labT_run op ha f j p k
    · intro c hc
      obtain ⟨j, hj, hc⟩ := List.mem_flatten.mp hc
      exact hok j hj c hc

theorem labJoin_comm (op : M → M → M) (ha : ∀ a b c, op (op a b) c = op a (op b c)) (hc : ∀ a b, op a b = op b a)
    (p x y : L → Option M) : labJoin op (labJoin op p x) y = labJoin op (labJoin op p y) x := by
  simp only [labJoin_eq]
  funext k
  rw [oplus_assoc op ha, oplus_assoc op ha, oplus_comm op hc (x k)]

theorem mapM_perm {A B E : Type} {l l' : List A} (f : A → Except E B) (bs : List B) (h : l.mapM f = .ok bs)
    (hp : l'.Perm l) : ∃ bs', l'.mapM f = .ok bs' ∧ bs'.Perm bs := by
  have hall : ∀ (l : List A) bs, l.mapM f = .ok bs → l.map f = bs.map .ok := by
    intro l
    induction l with
    | nil => intro bs h; cases h; rfl
    | cons a l ih =>
      intro bs h
      rw [List.mapM_cons] at h
      cases ha : f a with
      | error e => rw [ha] at h; cases h
      | ok b =>
        rw [ha] at h
        cases hl : l.mapM f with
        | error e => rw [hl] at h; cases h
        | ok bs' =>
          rw [hl] at h
          cases h
          rw [List.map_cons, ih _ hl, ha]; rfl
  have hex : ∀ a ∈ l, ∃ b, f a = .ok b := by
    intro a ha
    have := hall l bs h ▸ List.mem_map_of_mem (f := f) ha
    obtain ⟨b, _, hb⟩ := List.mem_map.mp this
    exact ⟨b, hb.symm⟩
  by_cases hB : Nonempty B
  · let g : A → B := fun a => match f a with | .ok b => b | .error _ => hB.some
    have hg : ∀ a ∈ l, f a = .ok (g a) := by
      intro a ha
      obtain ⟨b, hb⟩ := hex a ha
      simp only [g, hb]
    refine ⟨l'.map g, mapM_ok f g l' fun a ha => hg a (hp.mem_iff.mp ha), ?_⟩
    have : bs = l.map g := by
      have := mapM_ok f g l hg
      rw [h] at this
      injection this
    rw [this]
    exact hp.map g
  · cases l with
    | nil => exact ⟨[], by rw [hp.eq_nil]; rfl, by cases h; exact .refl _⟩
    | cons a l => obtain ⟨b, _⟩ := hex a (by simp); exact absurd ⟨b⟩ hB

/-- Distribution over forks joined in any order, for a commutative accumulation. -/
theorem lab_fork_join (zero : M) (op : M → M → M) (hz : ∀ a, op zero a = a)
    (ha : ∀ a b c, op (op a b) c = op a (op b c)) (hc : ∀ a b, op a b = op b a) (f : List (Row F d) → M)
    (jobs jobs' : List (List (List (Row F d) × Labels L))) (hperm : jobs'.Perm jobs)
    (hok : ∀ j ∈ jobs, ∀ c ∈ j, labelsOk c.1 c.2 = true) (p : L → Option M) :
    ∃ forks q, (jobs'.mapM fun j => j.foldlM (fun m c => labTrain zero op f m c.1 c.2) fun _ => none) = .ok forks
      ∧ forks.foldl (labJoin op) p = q
      ∧ jobs.flatten.foldlM (fun m c => labTrain zero op f m c.1 c.2) p = .ok q := by
  obtain ⟨forks, q, h1, h2, h3⟩ := lab_fork_join_order zero op hz ha f jobs hok p
  obtain ⟨forks', h1', hp'⟩ := mapM_perm _ forks h1 hperm
  refine ⟨forks', q, h1', ?_, h3⟩
  rw [← h2]
  exact hp'.foldl_eq' (fun x _ y _ p => labJoin_comm op ha hc p x y) p

/-- **C44**, FDANode (first phase) and NearestMeanClassifier: however the chunks are distributed over forks and in
whatever order these are joined, every label has the sum and number of its rows that sequential training gives. -/
theorem means_fork_join (jobs jobs' : List (List (List (Row F d) × Labels L))) (hperm : jobs'.Perm jobs)
    (hok : ∀ j ∈ jobs, ∀ c ∈ j, labelsOk c.1 c.2 = true) (p : L → Option (Row F d × Nat)) :
    ∃ forks q, (jobs'.mapM fun j => j.foldlM (fun m c => meanTrain m c.1 c.2) fun _ => none) = .ok forks
      ∧ forks.foldl (labJoin (· + ·)) p = q
      ∧ jobs.flatten.foldlM (fun m c => meanTrain m c.1 c.2) p = .ok q :=
  lab_fork_join _ _ zero_add add_assoc add_comm _ jobs jobs' hperm hok p

/-- **C44**, GaussianClassifier. -/
theorem gauss_fork_join (jobs jobs' : List (List (List (Row F d) × Labels L))) (hperm : jobs'.Perm jobs)
    (hok : ∀ j ∈ jobs, ∀ c ∈ j, labelsOk c.1 c.2 = true) (p : L → Option (Mat F d d × Row F d × Nat)) :
    ∃ forks q, (jobs'.mapM fun j => j.foldlM (fun m c => gaussTrain m c.1 c.2) fun _ => none) = .ok forks
      ∧ forks.foldl (labJoin (· + ·)) p = q
      ∧ jobs.flatten.foldlM (fun m c => gaussTrain m c.1 c.2) p = .ok q :=
  lab_fork_join _ _ zero_add add_assoc add_comm _ jobs jobs' hperm hok p

/-- **C44**, KNNClassifier: joined in order, the lists of samples are those of sequential training. -/
theorem knn_fork_join (jobs : List (List (List (Row F d) × Labels L)))
    (hok : ∀ j ∈ jobs, ∀ c ∈ j, labelsOk c.1 c.2 = true) (p : L → Option (List (List (Row F d)))) :
    ∃ forks q, (jobs.mapM fun j => j.foldlM (fun m c => knnTrain m c.1 c.2) fun _ => none) = .ok forks
      ∧ forks.foldl (labJoin (· ++ ·)) p = q
      ∧ jobs.flatten.foldlM (fun m c => knnTrain m c.1 c.2) p = .ok q :=
  lab_fork_join_order _ _ List.nil_append List.append_assoc _ jobs hok p

end Mdp.Join
