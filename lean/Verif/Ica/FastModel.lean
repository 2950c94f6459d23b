import Verif.Ica.Model
import Mathlib.Analysis.Complex.Trigonometric

/-!
# Model of `FastICANode`

mdp/nodes/ica_nodes.py:347-1021. Numbers are real; a vector that the code fills with `nan` (after a division by zero) is `none`.
The random samples (`_get_rsamples`) are a parameter, indexed by the component and the iteration. Messages are not modelled.
-/

namespace Mdp.Ica

open Matrix

variable {m : Nat}

/-- The names of the nonlinearities (479-489). -/
inductive Nl where
  | pow3 | tanh | gaus | skew
deriving DecidableEq

/-- The parameters of the constructor (385-391); `approach`, `guess` and the whitening are separate. -/
structure FCfg where
  g : Nl
  fineG : Option Nl
  mu : ℝ
  sampleSize : ℝ
  fineTanh : ℝ
  fineGaus : ℝ
  maxIt : Nat
  maxItFine : Nat
  failures : Nat
  coarse : Option ℝ
  limit : ℝ

/-- The numbers of the nonlinearities (565-572). -/
def Nl.code : Nl → Nat
  | .pow3 => 10 | .tanh => 20 | .gaus => 30 | .skew => 40

/-- `gOrig` (565-577). -/
noncomputable def FCfg.gOrig (c : FCfg) : Nat :=
  c.g.code + (if c.sampleSize ≠ 1 then 2 else 0) + (if c.mu ≠ 1 then 1 else 0)

/-- `gFine` (579-594). -/
noncomputable def FCfg.gFine (c : FCfg) : Nat :=
  match c.fineG with
  | some n => n.code + 1
  | none => if c.mu = 1 then c.gOrig + 1 else c.gOrig

/-- `stabilization` (496, 543, 592). -/
def FCfg.stab (c : FCfg) : Prop := c.mu ≠ 1

/-- The branches on `used_g`: the nonlinearity, whether random samples are used, whether the step is stabilised (685-798, 912-1010). -/
def decode (used : Nat) : Option (Nl × Bool × Bool) :=
  if used = 10 then some (.pow3, false, false) else if used = 11 then some (.pow3, false, true)
  else if used = 12 then some (.pow3, true, false) else if used = 13 then some (.pow3, true, true)
  else if used = 20 then some (.tanh, false, false) else if used = 21 then some (.tanh, false, true)
  else if used = 22 then some (.tanh, true, false) else if used = 23 then some (.tanh, true, true)
  else if used = 30 then some (.gaus, false, false) else if used = 31 then some (.gaus, false, true)
  else if used = 32 then some (.gaus, true, false) else if used = 33 then some (.gaus, true, true)
  else if used = 40 then some (.skew, false, false) else if used = 41 then some (.skew, false, true)
  else if used = 42 then some (.skew, true, false) else if used = 43 then some (.skew, true, true)
  else none

/-- The nonlinearity (`u*u*u`, `tang`, `gauss`, `u*u`). -/
noncomputable def FCfg.fn (c : FCfg) : Nl → ℝ → ℝ
  | .pow3, u => u * u * u
  | .tanh, u => Real.tanh (c.fineTanh * u)
  | .gaus, u => u * Real.exp (-c.fineGaus * (u * u) * 0.5)
  | .skew, u => u * u

/-- What is used for the derivative of the nonlinearity: constants for `pow3` and `skew`. -/
noncomputable def FCfg.dfn (c : FCfg) : Nl → ℝ → ℝ
  | .pow3, _ => 3
  | .tanh, u => c.fineTanh * (1 - Real.tanh (c.fineTanh * u) * Real.tanh (c.fineTanh * u))
  | .gaus, u => (1 - c.fineGaus * (u * u)) * Real.exp (-c.fineGaus * (u * u) * 0.5)
  | .skew, _ => 0

/-- A mean over the samples. -/
noncomputable def avg (x : List (Vec m)) (f : Vec m → ℝ) : ℝ := (x.map f).sum / x.length

/-- The plain step for a vector (912-914, 930-934, ...); the sums of the code are divided by the number of samples throughout. -/
noncomputable def FCfg.plain (c : FCfg) (n : Nl) (x : List (Vec m)) (w : Vec m) : Vec m := fun k =>
  avg x (fun r => r k * c.fn n (r ⬝ᵥ w)) - avg x (fun r => c.dfn n (r ⬝ᵥ w)) * w k

/-- The stabilised step for a vector (915-919, 935-940, ...). -/
noncomputable def FCfg.damped (c : FCfg) (n : Nl) (mu : ℝ) (x : List (Vec m)) (w : Vec m) : Option (Vec m) :=
  let ex : Vec m := fun k => avg x (fun r => r k * c.fn n (r ⬝ᵥ w))
  let beta := w ⬝ᵥ ex
  let den := avg x (fun r => c.dfn n (r ⬝ᵥ w)) - beta
  if den = 0 then none else some fun k => w k - mu * ((ex k - beta * w k) / den)

/-- The euclidean length, `utils.norm2`. -/
noncomputable def norm2 (w : Vec m) : ℝ := Real.sqrt (w ⬝ᵥ w)

/-- `w /= utils.norm2(w)`. -/
noncomputable def normalise (w : Option (Vec m)) : Option (Vec m) :=
  w.bind fun w => if norm2 w = 0 then none else some fun k => w k / norm2 w

/-- `w -= mult(mult(Q, Q.T), w)`, `w /= utils.norm2(w)` (824-825, 838-839). -/
noncomputable def project (q : Matrix (Fin m) (Fin m) ℝ) (w : Option (Vec m)) : Option (Vec m) :=
  normalise (w.map fun w => w - (q * qᵀ) *ᵥ w)

/-- `min(utils.norm2(w-wOld), utils.norm2(w+wOld))` (863). -/
noncomputable def dist (w v : Option (Vec m)) : Option ℝ :=
  w.bind fun w => v.map fun v => min (norm2 (w - v)) (norm2 (w + v))

/-- A comparison with `nan` is false. -/
def below (d : Option ℝ) (limit : ℝ) : Prop := ∃ r, d = some r ∧ r < limit

/-! ## Deflation -/

/-- The variables of the loop for one component. -/
structure CSt (m : Nat) where
  w : Option (Vec m)
  wOld : Option (Vec m)
  wOldF : Option (Vec m)
  i : Nat
  gabba : Nat
  mu : ℝ
  stroke : ℝ
  used : Nat
  fine : Bool
  lng : Bool
  endFine : Nat
  conv : List (Option ℝ)

/-- How the loop for a component ends. -/
inductive Res (m : Nat) where
  /-- the component is stored -/
  | found (w : Vec m)
  /-- it did not converge in `max_it` iterations (841-855) -/
  | failed
  /-- the condition of the loop is false (833) -/
  | over

/-- The beginning of an iteration (838-864): projection, the old vector at the end of fine-tuning, the convergence value. -/
noncomputable def CSt.test (q : Matrix (Fin m) (Fin m) ℝ) (s : CSt m) : CSt m :=
  let w := project q s.w
  let wOld := if s.fine = true ∧ s.endFine ≤ s.i then w else s.wOld
  { s with w := w, wOld := wOld, conv := s.conv ++ [dist w wOld] }

open Classical in
/-- The branch `elif stabilization` (886-908). -/
noncomputable def CSt.damp (c : FCfg) (s : CSt m) : CSt m :=
  if c.stab then
    if s.stroke = 0 ∧ below (dist s.w s.wOldF) c.limit then
      { s with stroke := s.mu, mu := 0.5 * s.mu, used := if s.used % 2 = 0 then s.used + 1 else s.used }
    else if s.stroke ≠ 0 then
      { s with mu := s.stroke, stroke := 0, used := if s.stroke = 1 ∧ s.used % 2 ≠ 0 then s.used - 1 else s.used }
    else if s.lng = false ∧ c.maxIt / 2 < s.i then
      { s with lng := true, mu := 0.5 * s.mu, used := if s.used % 2 = 0 then s.used + 1 else s.used }
    else s
  else s

/-- The step of a component (910-1014): the old vectors are kept, the new one has length one. -/
noncomputable def CSt.step (c : FCfg) (x : List (Vec m)) (draw : Nat → List (Vec m)) (s : CSt m) : Except Err (CSt m) :=
  match decode s.used with
  | none => .error .nonlinearity
  | some (n, sub, st) =>
    let rows := if sub then draw s.i else x
    let w' := s.w.bind fun w => if st then c.damped n s.mu rows w else some (c.plain n rows w)
    .ok { s with wOldF := s.wOld, wOld := s.w, w := normalise w', i := s.i + 1 }

/-- The state at the beginning of fine-tuning (866-875). -/
noncomputable def CSt.tune (c : FCfg) (s : CSt m) : CSt m :=
  { s with fine := true, gabba := c.maxItFine, wOld := some 0, wOldF := some 0, used := c.gFine, mu := 0.01 * c.mu,
           endFine := c.maxItFine + s.i }

open Classical in
/-- One iteration for a component (833-1014): a new state or the end of the loop. -/
noncomputable def CSt.iter (c : FCfg) (x : List (Vec m)) (draw : Nat → List (Vec m)) (q : Matrix (Fin m) (Fin m) ℝ) (round : Nat)
    (s : CSt m) : Except Err (CSt m ⊕ Res m × List (Option ℝ)) :=
  if s.i ≤ c.maxIt + s.gabba then
    if s.fine = false ∧ s.i = c.maxIt + 1 then .ok (.inr (.failed, s.conv))
    else
      let s := s.test q
      let d := dist s.w s.wOld
      if below d c.limit then
        if c.fineG.isSome ∧ s.fine = false then ((s.tune c).step c x draw).map .inl
        else
          match s.w with
          | none => .ok (.inr (.over, s.conv))
          | some w => .ok (.inr (.found w, s.conv.set round d))
      else ((s.damp c).step c x draw).map .inl
  else .ok (.inr (.over, s.conv))

/-- The loop for a component (833-1014); the first argument bounds the number of iterations (see `run_fuel`). -/
noncomputable def CSt.run (c : FCfg) (x : List (Vec m)) (draw : Nat → List (Vec m)) (q : Matrix (Fin m) (Fin m) ℝ) (round : Nat) :
    Nat → CSt m → Except Err (Res m × List (Option ℝ))
  | 0, s => .ok (.over, s.conv)
  | n + 1, s =>
    match s.iter c x draw q round with
    | .error e => .error e
    | .ok (.inr r) => .ok r
    | .ok (.inl s') => s'.run c x draw q round n

/-- The variables of the outer loop; `guess` is modified in place. -/
structure DSt (m : Nat) where
  q : Matrix (Fin m) (Fin m) ℝ
  nfail : Nat
  conv : List (Option ℝ)
  guess : Fin m → Option (Vec m)

/-- The state before the loop for a component (814-831). -/
noncomputable def CSt.start (c : FCfg) (q : Matrix (Fin m) (Fin m) ℝ) (conv : List (Option ℝ)) (guess : Option (Vec m)) : CSt m :=
  { w := project q guess, wOld := some 0, wOldF := some 0, i := 1, gabba := 1, mu := c.mu, stroke := 0, used := c.gOrig,
    fine := false, lng := false, endFine := 0, conv := conv }

/-- One round of the outer loop (813-1016). -/
noncomputable def DSt.round (c : FCfg) (x : List (Vec m)) (draw : Nat → Nat → List (Vec m)) (s : DSt m) (r : Fin m) :
    Except Err (DSt m) :=
  let c0 := CSt.start c s.q s.conv (s.guess r)
  -- `w` is a view of the column until the first step
  let guess := fun k => if k = r then project s.q c0.w else s.guess k
  match c0.run c x (draw r) s.q r (c.maxIt + c.maxItFine + 1) with
  | .error e => .error e
  | .ok (.over, conv) => .ok { s with conv := conv, guess := guess }
  | .ok (.failed, conv) =>
    if r.val = 0 then .error .convergence
    else if c.failures < s.nfail + 1 then .error .failures
    else .ok { s with nfail := s.nfail + 1, conv := conv, guess := guess }
  | .ok (.found w, conv) =>
    .ok { q := fun a k => if k = r then w a else s.q a k, nfail := 0, conv := conv, guess := guess }

/-- The loop `while round < comp` (813-1016) over the remaining components. -/
noncomputable def DSt.rounds (c : FCfg) (x : List (Vec m)) (draw : Nat → Nat → List (Vec m)) :
    List (Fin m) → DSt m → Except Err (DSt m)
  | [], s => .ok s
  | r :: l, s =>
    match s.round c x draw r with
    | .error e => .error e
    | .ok s' => s'.rounds c x draw l

/-- `FastICANode.core` with `approach = 'defl'` (510-601, 804-1021): the final state, of which `q` are the filters and the last entry of
`conv` is returned. -/
noncomputable def fastDefl (c : FCfg) (x : List (Vec m)) (draw : Nat → Nat → List (Vec m)) (guess : Matrix (Fin m) (Fin m) ℝ) :
    Except Err (DSt m) :=
  DSt.rounds c x draw (List.finRange m) ⟨0, 0, [], fun k => some fun a => guess a k⟩

/-! ## The symmetric approach -/

/-- The plain step for the matrix, by columns (685-687, 707-711, ...). -/
noncomputable def FCfg.plainM (c : FCfg) (n : Nl) (x : List (Vec m)) (q : Matrix (Fin m) (Fin m) ℝ) : Matrix (Fin m) (Fin m) ℝ :=
  fun a k => avg x (fun r => r a * c.fn n (r ⬝ᵥ q.col k)) - avg x (fun r => c.dfn n (r ⬝ᵥ q.col k)) * q a k

open Classical in
/-- The stabilised step for the matrix (688-694, 712-720, ...): `D` is `diag(1/(Beta - ...))`. -/
noncomputable def FCfg.dampedM (c : FCfg) (n : Nl) (mu : ℝ) (x : List (Vec m)) (q : Matrix (Fin m) (Fin m) ℝ) :
    Option (Matrix (Fin m) (Fin m) ℝ) :=
  let ug : Matrix (Fin m) (Fin m) ℝ := Matrix.of fun a k => avg x (fun r => (r ⬝ᵥ q.col a) * c.fn n (r ⬝ᵥ q.col k))
  let beta : Fin m → ℝ := fun k => ug k k
  let den : Fin m → ℝ := fun k => beta k - avg x (fun r => c.dfn n (r ⬝ᵥ q.col k))
  if ∃ k, den k = 0 then none
  else some (q + mu • (q * ((ug - diagonal beta) * diagonal fun k => 1 / den k)))

/-- The variables of the symmetric loop. -/
structure SSt (m : Nat) where
  q : Matrix (Fin m) (Fin m) ℝ
  qOld : Matrix (Fin m) (Fin m) ℝ
  qOldF : Matrix (Fin m) (Fin m) ℝ
  mu : ℝ
  stroke : ℝ
  used : Nat
  fine : Bool
  lng : Bool
  coarse : Bool
  conv : List ℝ

/-- `1.-abs((mult(Q.T, QOld)).diagonal()).min(axis=0)` (624-627); the code fails for no components. -/
noncomputable def change (q old : Matrix (Fin m) (Fin m) ℝ) : ℝ := 1 - ⨅ k, |(qᵀ * old) k k|

open Classical in
/-- The switch to the fine cost function (629-636), for a convergence value. -/
noncomputable def SSt.coarsen (c : FCfg) (s : SSt m) (v1 : ℝ) : SSt m :=
  if some c.g ≠ c.fineG ∧ (∃ l, c.coarse = some l ∧ v1 < l) ∧ s.coarse = false then { s with used := c.gFine, coarse := true }
  else s

/-- The beginning of fine-tuning (639-646); the name `QoldF` assigned there is not the one used elsewhere. -/
noncomputable def SSt.tune (c : FCfg) (s : SSt m) : SSt m :=
  { s with fine := true, used := c.gFine, mu := 0.01 * c.mu, qOld := 0 }

open Classical in
/-- The branch `if stabilization` (651-670). -/
noncomputable def SSt.damp (c : FCfg) (round : Nat) (s : SSt m) (v2 : ℝ) : SSt m :=
  if c.stab then
    if s.stroke = 0 ∧ v2 < c.limit then
      { s with stroke := s.mu, mu := 0.5 * s.mu, used := if s.used % 2 = 0 then s.used + 1 else s.used }
    else if s.stroke ≠ 0 then
      { s with mu := s.stroke, stroke := 0, used := if s.stroke = 1 ∧ s.used % 2 ≠ 0 then s.used - 1 else s.used }
    else if s.lng = false ∧ c.maxIt / 2 < round then
      { s with lng := true, mu := 0.5 * s.mu, used := if s.used % 2 = 0 then s.used + 1 else s.used }
    else s
  else s

/-- The step (672-798). -/
noncomputable def SSt.step (c : FCfg) (x : List (Vec m)) (draw : Nat → List (Vec m)) (round : Nat) (s : SSt m) : Except Err (SSt m) :=
  match decode s.used with
  | none => .error .nonlinearity
  | some (n, sub, st) =>
    let rows := if sub then draw round else x
    let q' := if st then c.dampedM n s.mu rows s.q else some (c.plainM n rows s.q)
    match q' with
    | none => .error .nan
    | some q' => .ok { s with qOldF := s.qOld, qOld := s.q, q := q' }

/-- The symmetric loop (604-798); the first argument is `max_it - round`. `root` is `utils.sqrtm(utils.inv(.))`, without a value for
singular matrices. -/
noncomputable def SSt.run (c : FCfg) (x : List (Vec m)) (draw : Nat → List (Vec m))
    (root : Matrix (Fin m) (Fin m) ℝ → Option (Matrix (Fin m) (Fin m) ℝ)) : Nat → SSt m → Except Err (SSt m)
  | 0, _ => .error .convergence
  | n + 1, s =>
    let round := c.maxIt - (n + 1)
    match root (s.qᵀ * s.q) with
    | none => .error .nan
    | some h =>
      let q := s.q * h
      let v1 := change q s.qOld
      let v2 := change q s.qOldF
      let s := SSt.coarsen c { s with q := q, conv := s.conv ++ [v1] } v1
      if v1 < c.limit then
        if c.fineG.isSome ∧ s.fine = false then
          match ((s.tune c).damp c round v2).step c x draw round with
          | .error e => .error e
          | .ok s' => s'.run c x draw root n
        else .ok s
      else
        match (s.damp c round v2).step c x draw round with
        | .error e => .error e
        | .ok s' => s'.run c x draw root n

/-- `FastICANode.core` with `approach = 'symm'` (510-803, 1020): the final state, of which `q` are the filters and the last entry of `conv` is
returned. -/
noncomputable def fastSymm (c : FCfg) (x : List (Vec m)) (draw : Nat → List (Vec m))
    (root : Matrix (Fin m) (Fin m) ℝ → Option (Matrix (Fin m) (Fin m) ℝ)) (guess : Matrix (Fin m) (Fin m) ℝ) : Except Err (SSt m) :=
  SSt.run c x draw root c.maxIt ⟨guess, 0, 0, c.mu, 0, c.gOrig, false, false, false, []⟩

end Mdp.Ica
