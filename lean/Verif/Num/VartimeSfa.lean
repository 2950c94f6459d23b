import Verif.Num.VartimeProps

/-!
# VartimeSFANode: slow features with variable time increments

Models `VartimeSFANode` of `mdp/nodes/sfa_nodes.py` (lines 376-612): `time_derivative` and `_train`, with
`_check_train_args` of `SFANode` (228-242).  The covariances are those of `Verif.Num.Vartime`.  What the
node computes from the two matrices is the same as in `SFANode`.
-/

namespace Mdp.VartimeSfa

open Mdp.Cov

variable {F : Type} [Field F] [LinearOrder F] {d : Nat}

inductive TErr where
  /-- 'Need at least 2 time samples to compute time derivative' -/
  | tooFew
  | cov (e : VErr)
deriving DecidableEq

/-- `_cov_mtx`, `_dcov_mtx`, `xlast`, `tchunk`. -/
structure Node (F : Type) (d : Nat) where
  cov : VarSt F d
  dcov : VarSt F d
  xlast : Row F d
  tchunk : Nat

/-- `__init__` and `_init_cov` (lines 399-459). -/
def Node.new (F : Type) [Field F] (d : Nat) : Node F d := ⟨VarSt.new F d, VarSt.new F d, 0, 0⟩

/-- `(x[1:, :] - x[:-1, :]) / w`, row by row. -/
def quotients (x : List (Row F d)) (w : List F) : List (Row F d) :=
  List.zipWith (fun (p : Row F d × Row F d) t i => (p.2 i - p.1 i) / t) (x.dropLast.zip (x.drop 1)) w

/-- The divisors of the differences inside the chunk: `dt[-x.shape[0]+1:]`, the constant, or one
(lines 525-533), for a chunk with two rows or more. -/
def divisors (rows : Nat) : Dt F → List F
  | .none => List.replicate (rows - 1) 1
  | .const c => List.replicate (rows - 1) c
  | .arr l => l.drop (l.length - (rows - 1))

/-- `outlen` is the number of rows of the chunk (lines 517-522); otherwise it is one less. -/
def full (tchunk rows : Nat) (dt : Dt F) (timeDep : Bool) : Bool :=
  match dt with
  | .none => timeDep && decide (tchunk > 0)
  | .arr l => !(decide (tchunk = 0) || decide (l.length ≠ rows))
  | .const _ => decide (tchunk > 0) && timeDep

/-- The row written to `out[0, :]` after the others (lines 535-541), if any. -/
def firstRow (n : Node F d) (x0 : Row F d) (rows : Nat) (dt : Dt F) (timeDep : Bool) : Option (Row F d) :=
  if n.tchunk > 0 ∧ timeDep then
    match dt with
    | .none => some (fun i => x0 i - n.xlast i)
    | .arr l => if l.length = rows then l.head?.map (fun t i => (x0 i - n.xlast i) / t) else none
    | .const c => some (fun i => (x0 i - n.xlast i) / c)
  else none

/-- `time_derivative` (lines 461-546) for a chunk with two rows or more whose `dt` has passed the checks;
`junk` is what `numx.empty` leaves in the first row of `out`. -/
def timeDerivative (junk : Row F d) (n : Node F d) (x : List (Row F d)) (dt : Dt F) (timeDep : Bool) :
    List (Row F d) :=
  let q := quotients x (divisors x.length dt)
  let out := if full n.tchunk x.length dt timeDep then junk :: q else q
  match firstRow n (x.headD 0) x.length dt timeDep with
  | none => out
  | some r => out.set 0 r

/-- `dt_` (lines 601-608). -/
def derivDt (outRows rows : Nat) (dt : Dt F) : Dt F :=
  match dt with
  | .none => .none
  | .const c => .const c
  | .arr l => if outRows > rows - 1 then .arr l else .arr (l.drop 1)

/-- `train` for this node: `_check_train_args`, `_train` (lines 553-610). -/
def train (sq : F → F) (junk : Row F d) (n : Node F d) (x : List (Row F d)) (dt : Dt F) (timeDep : Bool) :
    Except TErr Unit × Node F d :=
  if x.length < 2 then (.error .tooFew, n)
  else
    match n.cov.update sq x dt timeDep with
    | (.error e, c) => (.error (.cov e), { n with cov := c })
    | (.ok (), c) =>
      match (⟨none, 0, n.tchunk, 0⟩ : VarSt F d).check x.length dt timeDep with
      | some e => (.error (.cov e), { n with cov := c })
      | none =>
        let y := timeDerivative junk n x dt timeDep
        let n' : Node F d := { cov := c, dcov := n.dcov, xlast := x.getLast?.getD 0, tchunk := n.tchunk + 1 }
        match n.dcov.update sq y (derivDt y.length x.length dt) timeDep with
        | (.error e, c') => (.error (.cov e), { n' with dcov := c' })
        | (.ok (), c') => (.ok (), { n' with dcov := c' })

/-- Several calls of `train`. -/
def feed (sq : F → F) (junk : Nat → Row F d) (timeDep : Bool) (n : Node F d) :
    Nat → List (List (Row F d) × Dt F) → Except TErr Unit × Node F d
  | _, [] => (.ok (), n)
  | k, c :: cs =>
    match train sq (junk k) n c.1 c.2 timeDep with
    | (.error e, n') => (.error e, n')
    | (.ok (), n') => feed sq junk timeDep n' (k + 1) cs

/-! ### Specification -/

/-- The difference quotients of a signal, each with the time of the later sample. -/
def deriv : List (F × Row F d) → List (F × Row F d)
  | (_, x) :: (t, y) :: l => (t, fun i => (y i - x i) / t) :: deriv ((t, y) :: l)
  | _ => []

/-- Chunks as documented, with two rows or more. -/
def Good (isFull : Bool) (c : List (Row F d) × Dt F) : Prop := goodChunk isFull c ∧ 2 ≤ c.1.length

/-! ### Lemmas -/

variable [IsStrictOrderedRing F]

theorem holds_first_time {s : VarSt F d} {t t' : F} {x : Row F d} {l : List (F × Row F d)}
    (h : Holds s ((t, x) :: l)) : Holds s ((t', x) :: l) := by
  have tz : ∀ f : Row F d → F, trapz f ((t, x) :: l) = trapz f ((t', x) :: l) := by
    intro f; cases l <;> rfl
  obtain ⟨⟨C, A, h1, h2, h3⟩, h4, h5, h6⟩ := h
  refine ⟨⟨C, A, h1, ?_, ?_⟩, ?_, ?_, h6⟩
  · intro i j; rw [h2, tz]
  · intro i; rw [h3, tz]
  · rw [h4]; rfl
  · rw [← h5]
    cases l with
    | nil => rfl
    | cons a l => simp [List.getLast?_cons]

theorem deriv_append (l : List (F × Row F d)) (p q : F × Row F d) (r : List (F × Row F d)) :
    deriv (l ++ p :: q :: r) =
      deriv (l ++ [p]) ++ (q.1, fun i => (q.2 i - p.2 i) / q.1) :: deriv (q :: r) := by
  induction l with
  | nil => simp [deriv]
  | cons a l ih =>
    cases l with
    | nil => simp [deriv]
    | cons b l =>
      simp only [List.cons_append, deriv] at ih ⊢
      rw [ih]

/-- The difference quotients inside a chunk are the derivative of the chunk. -/
theorem quotients_deriv (t0 : F) (x0 : Row F d) (rest : List (Row F d)) (w : List F)
    (h : w.length = rest.length) :
    w.zip (quotients (x0 :: rest) w) = deriv ((t0, x0) :: w.zip rest) ∧
      (quotients (x0 :: rest) w).length = rest.length := by
  induction rest generalizing t0 x0 w with
  | nil =>
    cases w with
    | nil => simp [quotients, deriv]
    | cons t w => simp at h
  | cons y rest ih =>
    cases w with
    | nil => simp at h
    | cons t w =>
      have := ih t y w (by simpa using h)
      constructor
      · have e : quotients (x0 :: y :: rest) (t :: w) =
            (fun i => (y i - x0 i) / t) :: quotients (y :: rest) w := by
          simp [quotients]
        rw [e, List.zip_cons_cons, this.1]
        simp [deriv]
      · have e : quotients (x0 :: y :: rest) (t :: w) =
            (fun i => (y i - x0 i) / t) :: quotients (y :: rest) w := by
          simp [quotients]
        rw [e, List.length_cons, this.2]; rfl

theorem divisors_steps (rows : Nat) (h : 2 ≤ rows) (dt : Dt F) : divisors rows dt = steps rows dt := by
  cases dt with
  | none => rfl
  | const c => rfl
  | arr l => simp only [divisors, steps]; rw [if_neg (by omega)]

/-- The derivative of a chunk by itself, as the covariance object for the derivatives sees it. -/
theorem chunk_deriv (b : Bool) (c : List (Row F d) × Dt F) (hc : Good b c)
    (h3 : b = true → 3 ≤ c.1.length) :
    let y := quotients c.1 (divisors c.1.length c.2)
    let dt' := derivDt y.length c.1.length c.2
    goodChunk b (y, dt') ∧ y.length = c.1.length - 1 ∧
    ∃ t t' y0 r, timed y dt' = (t', y0) :: r ∧ deriv (timed c.1 c.2) = (t, y0) :: r := by
  intro y dt'
  obtain ⟨hg, h2⟩ := hc
  obtain ⟨t0, x0, rest, hx, hlen, ht, hpos, hsum, -⟩ := steps_timed b c hg
  have hy : y = quotients (x0 :: rest) (steps c.1.length c.2) := by
    simp only [y]; rw [divisors_steps _ h2, hx]
  obtain ⟨q1, q2⟩ := quotients_deriv t0 x0 rest _ hlen
  rw [← hy] at q1 q2
  have hrest : c.1.length = rest.length + 1 := by rw [hx]; rfl
  have hylen : y.length = c.1.length - 1 := by omega
  have hne : y ≠ [] := by
    intro e; rw [e] at hylen; simp at hylen; omega
  have hgood : goodChunk b (y, dt') := by
    simp only [dt', derivDt]
    obtain ⟨x, dt⟩ := c
    cases dt with
    | none => exact hne
    | const k => exact ⟨hne, hg.2⟩
    | arr l =>
      simp only at hylen h2 h3
      have hn : ¬ y.length > x.length - 1 := by omega
      simp only [hn, if_false]
      cases b with
      | false =>
        simp only [goodChunk, Bool.false_eq_true, if_false] at hg ⊢
        refine ⟨fun t ht => hg.1 t (List.mem_of_mem_drop ht), ?_⟩
        rw [List.length_drop]
        omega
      | true =>
        simp only [goodChunk, if_true] at hg ⊢
        refine ⟨fun t ht => hg.1 t (List.mem_of_mem_drop ht), ?_, ?_⟩
        · rw [List.length_drop]
          omega
        · have := h3 rfl
          omega
  refine ⟨hgood, hylen, ?_⟩
  obtain ⟨t0', y0, rest', hy', hlen', ht', -⟩ := steps_timed b (y, dt') hgood
  simp only at hy' hlen' ht'
  have hsteps : steps y.length dt' = (steps c.1.length c.2).drop 1 := by
    simp only [dt', derivDt]
    obtain ⟨x, dt⟩ := c
    simp only at hylen h2 ⊢
    cases dt with
    | none => simp [steps, hylen, List.drop_replicate]
    | const k => simp [steps, hylen, List.drop_replicate]
    | arr l =>
      simp only at h3
      simp only
      rw [if_neg (by omega)]
      simp only [steps]
      rw [if_neg (show ¬ x.length = 1 by omega)]
      cases b with
      | false =>
        simp only [goodChunk, Bool.false_eq_true, if_false] at hg
        rw [show l.length - (x.length - 1) = 0 by omega, List.drop_zero, List.length_drop]
        split
        · rfl
        · rw [show l.length - 1 - (y.length - 1) = 0 by omega, List.drop_zero]
      | true =>
        simp only [goodChunk, if_true] at hg
        have := h3 rfl
        rw [if_neg (by omega), List.length_drop, List.drop_drop, List.drop_drop]
        congr 1
        omega
  rw [ht, ← q1]
  cases hw : steps c.1.length c.2 with
  | nil => rw [hw] at hlen; simp at hlen; omega
  | cons w0 w =>
    rw [hsteps, hw] at ht'
    refine ⟨w0, t0', y0, w.zip rest', ht', ?_⟩
    rw [hy', List.zip_cons_cons]

/-- What the node holds after a signal has been seen. -/
structure Seen (n : Node F d) (sig : List (F × Row F d)) : Prop where
  cov : Holds n.cov sig
  dcov : Holds n.dcov (deriv sig)
  last : (sig.getLast?.map (·.2)) = some n.xlast
  started : n.tchunk > 0

theorem check_eq {s t : VarSt F d} (h : s.tchunk > 0 ↔ t.tchunk > 0) (rows : Nat) (dt : Dt F) (td : Bool) :
    s.check rows dt td = t.check rows dt td := by
  unfold VarSt.check
  cases dt with
  | none => rfl
  | const c => rfl
  | arr l => simp only [h]

theorem seen_first (sq : F → F) (hsq : ∀ a, 0 ≤ a → sq a * sq a = a) (junk : Row F d) (td b : Bool)
    (c : List (Row F d) × Dt F) (hc : Good b c) (h3 : b = true → 3 ≤ c.1.length) :
    ∃ n', train sq junk (Node.new F d) c.1 c.2 td = (.ok (), n') ∧ Seen n' (timed c.1 c.2) := by
  obtain ⟨hgood, hylen, t, t', y0, r, h1, h2⟩ := chunk_deriv b c hc h3
  obtain ⟨s1, u1, H1⟩ := holds_first sq hsq b td c hc.1
  obtain ⟨s2, u2, H2⟩ := holds_first sq hsq b td _ hgood
  rw [h1] at H2
  obtain ⟨x0, xl, hx0, hxl⟩ := good_ends b c hc.1
  have hck : (⟨none, 0, (Node.new F d).tchunk, 0⟩ : VarSt F d).check c.1.length c.2 td = none :=
    good_check _ b td c hc.1 (Or.inr (Or.inr rfl))
  have hy : timeDerivative junk (Node.new F d) c.1 c.2 td = quotients c.1 (divisors c.1.length c.2) := by
    have hf : full (Node.new F d).tchunk c.1.length c.2 td = false := by
      cases c.2 <;> simp [full, Node.new]
    have hr : firstRow (Node.new F d) (c.1.headD 0) c.1.length c.2 td = none := by
      simp [firstRow, Node.new]
    simp only [timeDerivative, hf, hr, Bool.false_eq_true, if_false]
  refine ⟨⟨s1, s2, c.1.getLast?.getD 0, 1⟩, ?_, H1, ?_, ?_, Nat.one_pos⟩
  · simp only [train, show ¬ c.1.length < 2 from Nat.not_lt.2 hc.2, if_false, hck, hy]
    have e1 : (Node.new F d).cov = VarSt.new F d := rfl
    have e2 : (Node.new F d).dcov = VarSt.new F d := rfl
    rw [e1, u1, e2]
    simp only
    rw [u2]
    rfl
  · rw [h2]; exact holds_first_time H2
  · rw [timed_last b c hc.1, hxl]; rfl

theorem seen_next (sq : F → F) (hsq : ∀ a, 0 ≤ a → sq a * sq a = a) (junk : Row F d)
    (c : List (Row F d) × Dt F) (hc : Good true c) (n : Node F d) (sig : List (F × Row F d))
    (hn : Seen n sig) :
    ∃ n', train sq junk n c.1 c.2 true = (.ok (), n') ∧ Seen n' (sig ++ timed c.1 c.2) := by
  obtain ⟨hg, h2⟩ := hc
  obtain ⟨H1, H2, hlast, hst⟩ := hn
  obtain ⟨t0, x0, rest, hx, hlen, ht, hpos, hsum, hfirst⟩ := steps_timed true c hg
  obtain ⟨s1, u1, G1⟩ := holds_next sq hsq c hg n.cov sig H1
  obtain ⟨x0', xl, hx0, hxl⟩ := good_ends true c hg
  have hck : (⟨none, 0, n.tchunk, 0⟩ : VarSt F d).check c.1.length c.2 true = none :=
    good_check _ true true c hg (Or.inl rfl)
  obtain ⟨q1, q2⟩ := quotients_deriv t0 x0 rest _ hlen
  -- the rows of the derivative
  generalize hq : quotients (x0 :: rest) (steps c.1.length c.2) = q at q1 q2
  have hrows : c.1.length = rest.length + 1 := by rw [hx]; rfl
  have hy : timeDerivative junk n c.1 c.2 true = (fun i => (x0 i - n.xlast i) / t0) :: q := by
    have hf : full n.tchunk c.1.length c.2 true = true := by
      obtain ⟨x, dt⟩ := c
      cases dt with
      | none => simp [full, hst]
      | const k => simp [full, hst]
      | arr l =>
        simp only [goodChunk, if_true] at hg
        simp [full, hg.2.1, Nat.pos_iff_ne_zero.1 hst]
    have hr : firstRow n (c.1.headD 0) c.1.length c.2 true = some (fun i => (x0 i - n.xlast i) / t0) := by
      have hh : c.1.headD 0 = x0 := by rw [hx]; rfl
      rw [hh]
      unfold firstRow
      rw [if_pos ⟨hst, rfl⟩]
      obtain ⟨x, dt⟩ := c
      cases dt with
      | none => simp only at hfirst; simp [hfirst]
      | const k => simp only at hfirst; simp [hfirst]
      | arr l =>
        simp only [goodChunk, if_true] at hg
        simp only at hfirst
        simp only [hg.2.1, if_true, hfirst hg.2.1, Option.map_some]
    simp only [timeDerivative, hf, hr, if_true, List.set_cons_zero]
    rw [divisors_steps _ h2, ← hq, hx]
  have hylen : (timeDerivative junk n c.1 c.2 true).length = c.1.length := by
    rw [hy, List.length_cons, q2, hrows]
  have hdt : derivDt (timeDerivative junk n c.1 c.2 true).length c.1.length c.2 = c.2 := by
    unfold derivDt
    rw [hylen]
    cases c.2 with
    | none => rfl
    | const k => rfl
    | arr l => simp only; rw [if_pos (by omega)]
  have hgd : goodChunk true (timeDerivative junk n c.1 c.2 true, c.2) := by
    have hne : timeDerivative junk n c.1 c.2 true ≠ [] := by rw [hy]; simp
    obtain ⟨x, dt⟩ := c
    cases dt with
    | none => exact hne
    | const k => exact ⟨hne, hg.2⟩
    | arr l =>
      simp only [goodChunk, if_true] at hg ⊢
      simp only at hylen
      rw [hylen]
      exact hg
  have htimed : timed (timeDerivative junk n c.1 c.2 true) c.2 =
      (t0, fun i => (x0 i - n.xlast i) / t0) :: deriv (timed c.1 c.2) := by
    obtain ⟨t1, y0, rest', e1, e2, e3, -, -, e4⟩ :=
      steps_timed true (timeDerivative junk n c.1 c.2 true, c.2) hgd
    simp only at e1 e2 e3 e4
    rw [hylen] at e3 e4
    rw [hy] at e1
    obtain ⟨rfl, rfl⟩ := List.cons.inj e1
    have : t1 = t0 := by
      obtain ⟨x, dt⟩ := c
      cases dt with
      | none => simp only at hfirst e4; rw [hfirst, e4]
      | const k => simp only at hfirst e4; rw [hfirst, e4]
      | arr l =>
        simp only [goodChunk, if_true] at hg
        simp only at hfirst e4
        have a := hfirst hg.2.1
        have b := e4 hg.2.1
        rw [a] at b
        exact (Option.some.inj b).symm
    rw [e3, this, ht, ← q1]
  obtain ⟨s2, u2, G2⟩ := holds_next sq hsq _ hgd n.dcov (deriv sig) H2
  have hderiv : deriv (sig ++ timed c.1 c.2) =
      deriv sig ++ timed (timeDerivative junk n c.1 c.2 true) c.2 := by
    rw [htimed, ht]
    obtain ⟨p, hp, hpl⟩ := Option.map_eq_some_iff.1 hlast
    obtain ⟨l, rfl⟩ : ∃ l, sig = l ++ [p] := by
      refine ⟨sig.dropLast, ?_⟩
      exact (List.dropLast_append_getLast? p hp).symm
    rw [List.append_assoc, List.singleton_append, deriv_append]
    simp only [hpl]
  refine ⟨⟨s1, s2, c.1.getLast?.getD 0, n.tchunk + 1⟩, ?_, G1, ?_, ?_, Nat.succ_pos _⟩
  · simp only [train, show ¬ c.1.length < 2 from Nat.not_lt.2 h2, if_false, u1, hck, hdt, u2]
  · rw [hderiv]; exact G2
  · rw [List.getLast?_append]
    have h3 := timed_last true c hg
    rw [hxl] at h3
    cases hq : (timed c.1 c.2).getLast? with
    | none => rw [hq] at h3; simp at h3
    | some q => rw [hq] at h3; simp at h3 ⊢; rw [h3, hxl]; rfl

theorem seen_feed (sq : F → F) (hsq : ∀ a, 0 ≤ a → sq a * sq a = a) (junk : Nat → Row F d)
    (cs : List (List (Row F d) × Dt F)) (hcs : ∀ c ∈ cs, Good true c) :
    ∀ (k : Nat) (n : Node F d) (sig : List (F × Row F d)), Seen n sig →
    ∃ n', feed sq junk true n k cs = (.ok (), n') ∧ Seen n' (sig ++ cs.flatMap fun c => timed c.1 c.2) := by
  induction cs with
  | nil => intro k n sig h; exact ⟨n, rfl, by simpa using h⟩
  | cons c cs ih =>
    intro k n sig h
    obtain ⟨n1, h1, h2⟩ := seen_next sq hsq (junk k) c (hcs c (by simp)) n sig h
    obtain ⟨n2, h3, h4⟩ := ih (fun c hc => hcs c (by simp [hc])) (k + 1) n1 _ h2
    exact ⟨n2, by simp only [feed, h1, h3], by simpa [List.flatMap_cons, List.append_assoc] using h4⟩

/-- **Training on a signal in chunks.**  However a signal with variable time increments is cut into chunks
of two rows or more, the node that is trained with them one after the other (time dependence between the
chunks, the first list of increments one shorter than its chunk, the later ones as long; the first may
be as long as its chunk if that has three rows or more) works with the
time-weighted covariance of the whole signal and the time-weighted second moments of its difference
quotients, those between two chunks included; both by the trapezoid rule.  Memory that is not
initialised (`junk`) does not matter. -/
theorem vartime_sfa_partial (sq : F → F) (hsq : ∀ a, 0 ≤ a → sq a * sq a = a) (junk : Nat → Row F d)
    (c : List (Row F d) × Dt F) (cs : List (List (Row F d) × Dt F)) (b : Bool) (hc : Good b c)
    (hb : b = true → 3 ≤ c.1.length) (hcs : ∀ c ∈ cs, Good true c) (sig : List (F × Row F d))
    (hsig : sig = timed c.1 c.2 ++ cs.flatMap fun c => timed c.1 c.2)
    (h1 : duration sig ≠ 0) (h2 : duration (deriv sig) ≠ 0) :
    ∃ n m avg s m' avg' s', feed sq junk true (Node.new F d) 0 (c :: cs) = (.ok (), n)
      ∧ n.cov.fix true = .ok ((m, avg, duration sig), s)
      ∧ (∀ i, avg i = tmean (fun a => a i) sig)
      ∧ (∀ i j, m i j = tmean (fun a => (a i - avg i) * (a j - avg j)) sig)
      ∧ n.dcov.fix false = .ok ((m', avg', duration (deriv sig)), s')
      ∧ (∀ i j, m' i j = tmean (fun a => a i * a j) (deriv sig)) := by
  obtain ⟨n1, a1, a2⟩ := seen_first sq hsq (junk 0) true b c hc hb
  obtain ⟨n, b1, b2⟩ := seen_feed sq hsq junk cs hcs 1 n1 _ a2
  rw [← hsig] at b2
  obtain ⟨⟨C, A, ha, hC, hA⟩, hT, -, -⟩ := b2.cov
  obtain ⟨⟨C', A', ha', hC', hA'⟩, hT', -, -⟩ := b2.dcov
  obtain ⟨m, avg, s', hfix, h3, h4⟩ := fix_of_sums n.cov (fun f => trapz f sig) C A
    (fun f g a b => trapz_linear f g a b sig) ha hC hA (by rw [trapz_one, hT]) (by rw [trapz_one]; exact h1)
  simp only [trapz_one] at hfix h3 h4
  refine ⟨n, m, avg, s', divM C' n.dcov.tlen, divR A' n.dcov.tlen, { n.dcov with acc := none, tlen := 0 },
    by simp only [feed, a1, b1], hfix, h3, h4, ?_, ?_⟩
  · simp only [VarSt.fix, ha', Bool.false_eq_true, if_false, hT']
  · intro i j
    simp only [divM, hC', hT', tmean]

/-! ### Without time dependence -/

theorem trapz_first_time (f : Row F d → F) (t t' : F) (x : Row F d) (l : List (F × Row F d)) :
    trapz f ((t, x) :: l) = trapz f ((t', x) :: l) ∧ duration ((t, x) :: l) = duration ((t', x) :: l) := by
  constructor
  · cases l <;> rfl
  · rfl

theorem separate_step (sq : F → F) (hsq : ∀ a, 0 ≤ a → sq a * sq a = a) (junk : Row F d)
    (c : List (Row F d) × Dt F) (hc : Good false c) (n : Node F d) (segs : List (List (F × Row F d)))
    (h1 : HoldsSep n.cov segs) (h2 : HoldsSep n.dcov (segs.map deriv)) :
    ∃ n', train sq junk n c.1 c.2 false = (.ok (), n') ∧ HoldsSep n'.cov (segs ++ [timed c.1 c.2]) ∧
      HoldsSep n'.dcov ((segs ++ [timed c.1 c.2]).map deriv) := by
  obtain ⟨hgood, hylen, t, t', y0, r, e1, e2⟩ := chunk_deriv false c hc (by simp)
  have one : ∀ (s : VarSt F d) (b : List (Row F d) × Dt F) (s' : VarSt F d),
      s.feed sq false [b] = (.ok (), s') → s.update sq b.1 b.2 false = (.ok (), s') := by
    intro s b s' h
    simp only [VarSt.feed] at h
    split at h
    · rename_i e; rw [e, ← h]
    · simp_all
  obtain ⟨s1, u1, G1⟩ := holdsSep_feed sq hsq [c] (by simpa using hc.1) n.cov segs h1
  obtain ⟨s2, u2, G2⟩ := holdsSep_feed sq hsq [_] (by simpa using hgood) n.dcov _ h2
  have hck : (⟨none, 0, n.tchunk, 0⟩ : VarSt F d).check c.1.length c.2 false = none :=
    good_check _ false false c hc.1 (Or.inr (Or.inl rfl))
  have hy : timeDerivative junk n c.1 c.2 false = quotients c.1 (divisors c.1.length c.2) := by
    have hf : full n.tchunk c.1.length c.2 false = false := by
      obtain ⟨⟨hg, _⟩, _⟩ := And.intro hc trivial
      obtain ⟨x, dt⟩ := c
      cases dt with
      | none => simp [full]
      | const k => simp [full]
      | arr l =>
        simp only [goodChunk, Bool.false_eq_true, if_false] at hg
        simp only [full]
        have : l.length ≠ x.length := by omega
        simp [this]
    have hr : firstRow n (c.1.headD 0) c.1.length c.2 false = none := by simp [firstRow]
    simp only [timeDerivative, hf, hr, Bool.false_eq_true, if_false]
  refine ⟨⟨s1, s2, c.1.getLast?.getD 0, n.tchunk + 1⟩, ?_, by simpa using G1, ?_⟩
  · simp only [train, show ¬ c.1.length < 2 from Nat.not_lt.2 hc.2, if_false, one _ _ _ u1, hck, hy,
      one _ _ _ u2]
  · simp only [List.map_cons, List.map_nil] at G2
    rw [e1] at G2
    rw [List.map_append, List.map_cons, List.map_nil, e2]
    obtain ⟨g1, g2, g3, g4⟩ := G2
    refine ⟨?_, ?_, fun _ => g3 (by simp), ?_⟩
    · intro i j
      rw [g1]
      simp only [List.map_append, List.sum_append, List.map_cons, List.map_nil]
      rw [(trapz_first_time _ t t' y0 r).1]
    · intro i
      rw [g2]
      simp only [List.map_append, List.sum_append, List.map_cons, List.map_nil]
      rw [(trapz_first_time _ t t' y0 r).1]
    · rw [g4]
      simp only [List.map_append, List.sum_append, List.map_cons, List.map_nil]
      rfl

/-- **Training on separate chunks.**  Without time dependence only the time inside the chunks counts, for
the covariance of the signals and for the second moments of their difference quotients. -/
theorem vartime_sfa_separate_partial (sq : F → F) (hsq : ∀ a, 0 ≤ a → sq a * sq a = a)
    (junk : Nat → Row F d) (cs : List (List (Row F d) × Dt F)) (hcs : ∀ c ∈ cs, Good false c)
    (hne : cs ≠ []) (segs : List (List (F × Row F d))) (hsegs : segs = cs.map fun c => timed c.1 c.2) :
    ∃ n m avg t s m' avg' t' s', feed sq junk false (Node.new F d) 0 cs = (.ok (), n)
      ∧ n.cov.fix false = .ok ((m, avg, t), s)
      ∧ (∀ i, avg i = tmeanSep (fun a => a i) segs)
      ∧ (∀ i j, m i j = tmeanSep (fun a => a i * a j) segs)
      ∧ n.dcov.fix false = .ok ((m', avg', t'), s')
      ∧ (∀ i j, m' i j = tmeanSep (fun a => a i * a j) (segs.map deriv)) := by
  have key : ∀ (cs : List (List (Row F d) × Dt F)), (∀ c ∈ cs, Good false c) →
      ∀ (k : Nat) (n : Node F d) (segs : List (List (F × Row F d))),
      HoldsSep n.cov segs → HoldsSep n.dcov (segs.map deriv) →
      ∃ n', feed sq junk false n k cs = (.ok (), n') ∧
        HoldsSep n'.cov (segs ++ cs.map fun c => timed c.1 c.2) ∧
        HoldsSep n'.dcov ((segs ++ cs.map fun c => timed c.1 c.2).map deriv) := by
    intro cs
    induction cs with
    | nil => intro _ k n segs h1 h2; exact ⟨n, rfl, by simpa using h1, by simpa using h2⟩
    | cons c cs ih =>
      intro hcs k n segs h1 h2
      obtain ⟨n1, a1, a2, a3⟩ := separate_step sq hsq (junk k) c (hcs c (by simp)) n segs h1 h2
      obtain ⟨n2, b1, b2, b3⟩ := ih (fun c hc => hcs c (by simp [hc])) (k + 1) n1 _ a2 a3
      refine ⟨n2, by simp only [feed, a1, b1], ?_, ?_⟩
      · simpa [List.append_assoc] using b2
      · simpa [List.append_assoc] using b3
  have h0 : HoldsSep (VarSt.new F d) [] :=
    ⟨by intro i j; simp [VarSt.new], by intro i; simp [VarSt.new], by simp, by simp [VarSt.new]⟩
  obtain ⟨n, f1, f2, f3⟩ := key cs hcs 0 (Node.new F d) [] h0 h0
  rw [List.nil_append, ← hsegs] at f2 f3
  have hne' : segs ≠ [] := by rw [hsegs]; simpa using hne
  have fix : ∀ (s : VarSt F d) (g : List (List (F × Row F d))), g ≠ [] → HoldsSep s g →
      ∃ m avg t s', s.fix false = .ok ((m, avg, t), s') ∧ (∀ i, avg i = tmeanSep (fun a => a i) g) ∧
        (∀ i j, m i j = tmeanSep (fun a => a i * a j) g) := by
    intro s g hg h
    cases ha : s.acc with
    | none => exact absurd ha (h.some hg)
    | some p =>
      obtain ⟨C, A⟩ := p
      have hC := h.acc; have hA := h.avg
      rw [ha] at hC hA
      simp only [Option.getD_some] at hC hA
      refine ⟨divM C s.tlen, divR A s.tlen, s.tlen, { s with acc := none, tlen := 0 }, ?_, ?_, ?_⟩
      · simp only [VarSt.fix, ha, Bool.false_eq_true, if_false]
      · intro i; simp only [divR, hA, h.tlen, tmeanSep]
      · intro i j; simp only [divM, hC, h.tlen, tmeanSep]
  obtain ⟨m, avg, t, s, g1, g2, g3⟩ := fix n.cov segs hne' f2
  obtain ⟨m', avg', t', s', k1, -, k3⟩ := fix n.dcov (segs.map deriv) (by simpa using hne') f3
  exact ⟨n, m, avg, t, s, m', avg', t', s', f1, g1, g2, g3, k1, k3⟩

/-- **Chunks of one row are refused**, without effect. -/
theorem one_row_refused (sq : F → F) (junk : Row F d) (n : Node F d) (x : List (Row F d)) (dt : Dt F)
    (td : Bool) (h : x.length < 2) : train sq junk n x dt td = (.error .tooFew, n) := by
  simp [train, h]

/-! ### In parallel -/

/-- `ParallelSFANode._join` for one of the two covariance objects (mdp/parallel/parallelnodes.py, lines 200-208):
the sums are added, or the object of the fork is taken if there is nothing yet. -/
def joinCov (a b : VarSt F d) : VarSt F d :=
  match a.acc, b.acc with
  | none, _ => b
  | some p, some q => { a with acc := some (p.1 + q.1, p.2 + q.2), tlen := a.tlen + b.tlen }
  | some _, none => a

/-- Parallel training: each chunk in a fork of its own, joined in order. -/
def parallel (sq : F → F) (junk : Nat → Row F d) (td : Bool) (n : Node F d) :
    Nat → List (List (Row F d) × Dt F) → Except TErr Unit × Node F d
  | _, [] => (.ok (), n)
  | k, c :: cs =>
    match train sq (junk k) (Node.new F d) c.1 c.2 td with
    | (.error e, _) => (.error e, n)
    | (.ok (), f) =>
      parallel sq junk td { n with cov := joinCov n.cov f.cov, dcov := joinCov n.dcov f.dcov } (k + 1) cs

theorem holdsSep_of_holds {s : VarSt F d} {l : List (F × Row F d)} (h : Holds s l) : HoldsSep s [l] := by
  obtain ⟨⟨C, A, ha, hC, hA⟩, hT, -, -⟩ := h
  refine ⟨?_, ?_, fun _ => by rw [ha]; simp, by simpa using hT⟩
  · intro i j; rw [ha]; simpa using hC i j
  · intro i; rw [ha]; simpa using hA i

theorem holdsSep_join {s t : VarSt F d} {a b : List (List (F × Row F d))} (hs : HoldsSep s a)
    (ht : HoldsSep t b) (hb : b ≠ []) : HoldsSep (joinCov s t) (a ++ b) := by
  cases h1 : s.acc with
  | none =>
    have ha : a = [] := by
      by_contra hne
      exact hs.some hne h1
    subst ha
    simp only [joinCov, h1, List.nil_append]
    exact ht
  | some p =>
    cases h2 : t.acc with
    | none => exact absurd h2 (ht.some hb)
    | some q =>
      obtain ⟨s1, s2, -, s4⟩ := hs
      obtain ⟨t1, t2, -, t4⟩ := ht
      rw [h1] at s1 s2
      rw [h2] at t1 t2
      simp only [Option.getD_some] at s1 s2 t1 t2
      refine ⟨?_, ?_, ?_, ?_⟩
      · intro i j
        simp only [joinCov, h1, h2, Option.getD_some, List.map_append, List.sum_append, ← s1, ← t1]
        rfl
      · intro i
        simp only [joinCov, h1, h2, Option.getD_some, List.map_append, List.sum_append, ← s2, ← t2]
        rfl
      · intro _; simp [joinCov, h1, h2]
      · simp only [joinCov, h1, h2, List.map_append, List.sum_append, s4, t4]

/-- **In parallel only the time inside the chunks counts**, whatever `time_dep` is: the result is that of training
without time dependence. -/
theorem parallel_separate (sq : F → F) (hsq : ∀ a, 0 ≤ a → sq a * sq a = a) (junk : Nat → Row F d) (td : Bool)
    (cs : List (List (Row F d) × Dt F)) (hcs : ∀ c ∈ cs, Good false c) :
    ∃ n, parallel sq junk td (Node.new F d) 0 cs = (.ok (), n) ∧
      HoldsSep n.cov (cs.map fun c => timed c.1 c.2) ∧
      HoldsSep n.dcov ((cs.map fun c => timed c.1 c.2).map deriv) := by
  have key : ∀ (cs : List (List (Row F d) × Dt F)), (∀ c ∈ cs, Good false c) →
      ∀ (k : Nat) (n : Node F d) (segs : List (List (F × Row F d))),
      HoldsSep n.cov segs → HoldsSep n.dcov (segs.map deriv) →
      ∃ n', parallel sq junk td n k cs = (.ok (), n') ∧
        HoldsSep n'.cov (segs ++ cs.map fun c => timed c.1 c.2) ∧
        HoldsSep n'.dcov ((segs ++ cs.map fun c => timed c.1 c.2).map deriv) := by
    intro cs
    induction cs with
    | nil => intro _ k n segs h1 h2; exact ⟨n, rfl, by simpa using h1, by simpa using h2⟩
    | cons c cs ih =>
      intro hcs k n segs h1 h2
      obtain ⟨f, a1, a2⟩ := seen_first sq hsq (junk k) td false c (hcs c (by simp)) (by simp)
      have j1 := holdsSep_join h1 (holdsSep_of_holds a2.cov) (by simp)
      have j2 := holdsSep_join h2 (holdsSep_of_holds a2.dcov) (by simp)
      obtain ⟨n2, b1, b2, b3⟩ := ih (fun c hc => hcs c (by simp [hc])) (k + 1)
        { n with cov := joinCov n.cov f.cov, dcov := joinCov n.dcov f.dcov } (segs ++ [timed c.1 c.2]) j1
        (by simpa using j2)
      refine ⟨n2, by simp only [parallel, a1, b1], ?_, ?_⟩
      · simpa [List.append_assoc] using b2
      · simpa [List.append_assoc] using b3
  have h0 : HoldsSep (VarSt.new F d) [] :=
    ⟨by intro i j; simp [VarSt.new], by intro i; simp [VarSt.new], by simp, by simp [VarSt.new]⟩
  simpa using key cs hcs 0 (Node.new F d) [] h0 h0

/-! ### Where the property fails -/

/-- **Parallel training is not sequential training.**  With the default `time_dep=True` the time between chunks is
counted sequentially, in parallel it is not: two chunks of three rows, durations 5 and 4. -/
theorem parallel_violation (sq : ℚ → ℚ) :
    let cs : List (List (Row ℚ 1) × Dt ℚ) := [([![0], ![1], ![2]], .none), ([![3], ![4], ![5]], .none)]
    (∃ n m avg s, feed sq (fun _ => 0) true (Node.new ℚ 1) 0 cs = (.ok (), n) ∧
      n.cov.fix true = .ok ((m, avg, 5), s)) ∧
    (∃ n m avg s, parallel sq (fun _ => 0) true (Node.new ℚ 1) 0 cs = (.ok (), n) ∧
      n.cov.fix true = .ok ((m, avg, 4), s)) := by
  simp [feed, parallel, joinCov, train, Node.new, VarSt.update, VarSt.check, VarSt.new, VarSt.gap, VarSt.fix, stepSum,
    steps, timeDerivative, full, firstRow, quotients, divisors, derivDt]
  norm_num


/-- **Memory that is not initialised is used.**  Without time dependence and with a list of increments as
long as the chunk, the first row of the derivative of a second chunk is never written: the matrix that
is computed depends on what was in the memory. -/
theorem uninitialised_violation (sq : ℚ → ℚ) (hsq : sq 1 = 1) (j : ℚ) :
    ∃ n m avg s, feed sq (fun _ _ => j) false (Node.new ℚ 1) 0
        [([![0], ![1], ![2]], .arr [1, 1]), ([![0], ![1]], .arr [1, 1])] = (.ok (), n) ∧
      n.dcov.fix false = .ok ((m, avg, 3), s) ∧ m 0 0 = (2 + j * j) / 3 := by
  simp [feed, train, Node.new, VarSt.update, VarSt.check, VarSt.new, VarSt.gap, VarSt.fix, stepSum, steps,
    timeDerivative, full, firstRow, quotients, divisors, derivDt, half, multT, divM, scale, outer, hsq]
  norm_num
  ring

/-- **Two rows are too few.**  A single chunk of two rows is accepted, although there is no time between
the difference quotients (there is only one): the divisor is zero.  The same number of rows with as many
increments gives another divisor, and all sums are zero. -/
theorem two_rows_violation (sq : ℚ → ℚ) :
    (∃ n m avg s, feed sq (fun _ => 0) true (Node.new ℚ 1) 0 [([![0], ![1]], .arr [1])] = (.ok (), n) ∧
      n.dcov.fix false = .ok ((m, avg, 0), s)) ∧
    (∃ n m avg s, feed sq (fun _ => 0) true (Node.new ℚ 1) 0 [([![0], ![1]], .arr [5, 1])] = (.ok (), n) ∧
      n.dcov.fix false = .ok ((m, avg, 1), s) ∧ m 0 0 = 0) := by
  simp [feed, train, Node.new, VarSt.update, VarSt.check, VarSt.new, VarSt.gap, VarSt.fix, stepSum, steps,
    timeDerivative, full, firstRow, quotients, divisors, derivDt, half, multT, divM, scale, outer]

/-- Non-vacuity: a signal in two chunks. -/
example :
    let c : List (Row ℚ 1) × Dt ℚ := ([![0], ![1], ![3]], .arr [1, 2])
    let c' : List (Row ℚ 1) × Dt ℚ := ([![4], ![0]], .arr [1, 4])
    Good false c ∧ Good true c' ∧
      deriv (timed c.1 c.2 ++ timed c'.1 c'.2) = [(1, ![1]), (2, ![1]), (1, ![1]), (4, ![-1])] ∧
      duration (timed c.1 c.2 ++ timed c'.1 c'.2) = 8 ∧
      duration (deriv (timed c.1 c.2 ++ timed c'.1 c'.2)) = 7 := by
  refine ⟨?_, ?_, ?_, ?_, ?_⟩
  · simp [Good, goodChunk]
  · simp [Good, goodChunk]
  · simp [timed, deriv]
    refine ⟨?_, ?_, ?_, ?_⟩ <;> funext i <;> simp <;> norm_num
  · simp [timed, duration]; norm_num
  · simp [timed, deriv, duration]; norm_num

end Mdp.VartimeSfa
