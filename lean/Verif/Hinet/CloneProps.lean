import Verif.Hinet.LayerInverse
import Mathlib.Tactic.Ring

/-! # `CloneLayer(node, n)` works like `Layer([node] * n)` -/

namespace Mdp.Layer

open Py Mdp.Node Mdp.Flow

variable {σ α β : Type}

/-! ### Reshaping -/

theorem chunks_flatten (c : Nat) (L : List (List α)) (h : ∀ r ∈ L, r.length = c) :
    (List.range L.length).map (fun i => (L.flatten.drop (i * c)).take c) = L := by
  induction L with
  | nil => rfl
  | cons r R ih =>
    have hr := h r (by simp)
    have ih := ih (fun q hq => h q (by simp [hq]))
    rw [List.length_cons, List.range_succ_eq_map, List.map_cons, List.map_map]
    congr 1
    · simp only [Nat.zero_mul, List.drop_zero, List.flatten_cons]
      exact List.take_left' hr
    · refine Eq.trans ?_ ih
      apply List.map_congr_left
      intro i _
      simp only [Function.comp_apply, List.flatten_cons]
      have : (i + 1) * c = r.length + i * c := by rw [hr]; ring
      rw [this, List.drop_append, List.drop_eq_nil_of_le (by omega), List.nil_append]
      congr 2
      omega

/-- The consecutive blocks of `d` entries of a row. -/
def blocks (d n : Nat) (row : List α) : List (List α) := (List.range n).map fun j => (row.drop (j * d)).take d

theorem blocks_length (d n : Nat) (row : List α) (h : row.length = n * d) : ∀ b ∈ blocks d n row, b.length = d := by
  intro b hb
  simp only [blocks, List.mem_map, List.mem_range] at hb
  obtain ⟨j, hj, rfl⟩ := hb
  have : (j + 1) * d ≤ n * d := Nat.mul_le_mul_right d hj
  have e : (j + 1) * d = j * d + d := by ring
  rw [e] at this
  simp only [List.length_take, List.length_drop, h]
  omega

theorem blocks_flatten_aux (d n : Nat) (row : List α) (h : n * d ≤ row.length) :
    (blocks d n row).flatten = row.take (n * d) := by
  induction n with
  | zero => simp [blocks]
  | succ n ih =>
    have e : (n + 1) * d = n * d + d := by ring
    rw [e] at h
    have hb : blocks d (n + 1) row = blocks d n row ++ [(row.drop (n * d)).take d] := by
      simp [blocks, List.range_succ]
    rw [hb, List.flatten_append, ih (by omega), e, List.take_add]
    simp

theorem blocks_flatten (d n : Nat) (row : List α) (h : row.length = n * d) : (blocks d n row).flatten = row := by
  rw [blocks_flatten_aux d n row (by omega), List.take_of_length_le (by omega)]

theorem flatten_flatMap_blocks (d n : Nat) (R : List (List α)) (h : ∀ r ∈ R, r.length = n * d) :
    (R.flatMap (blocks d n)).flatten = R.flatten := by
  induction R with
  | nil => rfl
  | cons r R ih =>
    rw [List.flatMap_cons, List.flatten_append, blocks_flatten d n r (h r (by simp)),
      ih (fun q hq => h q (by simp [hq])), List.flatten_cons]

theorem length_flatMap_blocks (d n : Nat) (R : List (List α)) :
    (R.flatMap (blocks d n)).length = R.length * n := by
  induction R with
  | nil => simp
  | cons r R ih =>
    rw [List.flatMap_cons, List.length_append, ih, List.length_cons]
    simp only [blocks, List.length_map, List.length_range]
    ring

/-- `x.reshape(rows * n, d)` cuts every row into `n` blocks. -/
theorem reshape_split (x : Arr α) (hx : WF x) (d n : Nat) (hd : 0 < d) (hc : x.cols = n * d) :
    reshape x (x.nrows * x.cols / d) d = .ok ⟨2, d, x.dtype, x.data.flatMap (blocks d n)⟩ := by
  have hm : x.nrows * x.cols / d = x.nrows * n := by
    rw [hc, ← Nat.mul_assoc]; exact Nat.mul_div_cancel _ hd
  have hrow : ∀ r ∈ x.data, r.length = n * d := fun r hr => (hx.2 r hr).trans hc
  rw [hm, reshape, if_pos (by rw [hc]; ring)]
  congr 2
  have hl := length_flatMap_blocks d n x.data
  have := chunks_flatten d (x.data.flatMap (blocks d n)) (by
    intro b hb
    rw [List.mem_flatMap] at hb
    obtain ⟨r, hr, hb⟩ := hb
    exact blocks_length d n r (hrow r hr) b hb)
  rw [flatten_flatMap_blocks d n _ hrow, hl] at this
  exact this

/-- The rows are put together again from their blocks, each block mapped by `F`. -/
theorem reshape_join (R : List (List α)) (F : List α → List α) (d n o t rows : Nat) (hrows : R.length = rows)
    (hR : ∀ r ∈ R, r.length = n * d) (hF : ∀ r, r.length = d → (F r).length = o) :
    reshape ⟨2, o, t, (R.flatMap (blocks d n)).map F⟩ rows (n * o) =
      .ok ⟨2, n * o, t, R.map fun r => ((blocks d n r).map F).flatten⟩ := by
  have hflat : ((R.flatMap (blocks d n)).map F).flatten = (R.map fun r => ((blocks d n r).map F).flatten).flatten := by
    clear hrows hR
    induction R with
    | nil => rfl
    | cons r R ih => simp [ih]
  rw [reshape, if_pos ?_]
  · congr 2
    simp only [hflat]
    have := chunks_flatten (n * o) (R.map fun r => ((blocks d n r).map F).flatten) (by
      intro b hb
      simp only [List.mem_map] at hb
      obtain ⟨r, hr, rfl⟩ := hb
      have hb := blocks_length d n r (hR r hr)
      have hl : (blocks d n r).length = n := by simp [blocks]
      generalize blocks d n r = B at hb hl
      clear hR hflat hrows
      subst hl
      induction B with
      | nil => simp
      | cons b B ih =>
        have := hF b (hb b (by simp))
        have ih := ih (fun q hq => hb q (by simp [hq]))
        simp only [List.map_cons, List.flatten_cons, List.length_append, this, ih, List.length_cons]
        ring)
    rw [List.length_map, hrows] at this
    exact this
  · simp only [Arr.nrows, List.length_map, length_flatMap_blocks, hrows]
    ring

/-! ### Nodes that work row by row -/

/-- A trained node with known dimensions and dtype that maps the rows one by one by `F`. -/
structure RowNode (nd : Nd σ α β) (d o t t' : Nat) (F : List α → List α) : Prop where
  stable : Stable nd.s
  inp : nd.s.inputDim = some d
  out : nd.s.outputDim = some o
  dt : nd.s.dtype = some t
  sup : nd.K.supported t = true
  pure : ∀ x, (nd.K.execHook nd.s.st x).st = nd.s.st ∧ (nd.K.execHook nd.s.st x).sets = []
  rows : ∀ data, (nd.K.execHook nd.s.st ⟨2, d, t, data⟩).res = .ok ⟨2, o, t', data.map F⟩
  len : ∀ r, r.length = d → (F r).length = o

/-- The same for the inverse. -/
structure RowInvNode (nd : Nd σ α β) (d o t t' : Nat) (G : List α → List α) : Prop where
  training : nd.s.training = false
  invertible : nd.K.invertible = true
  inp : nd.s.inputDim = some d
  out : nd.s.outputDim = some o
  dt : nd.s.dtype = some t
  sup : nd.K.supported t = true
  pure : ∀ x, (nd.K.invHook nd.s.st x).st = nd.s.st ∧ (nd.K.invHook nd.s.st x).sets = []
  rows : ∀ data, (nd.K.invHook nd.s.st ⟨2, o, t, data⟩).res = .ok ⟨2, d, t', data.map G⟩
  len : ∀ r, r.length = o → (G r).length = d

theorem RowNode.exec {nd : Nd σ α β} {d o t t' : Nat} {F} (h : RowNode nd d o t t' F) (x : Arr α) (h2 : x.ndim = 2)
    (hc : x.cols = d) (hr : 0 < x.nrows) : (execute nd.K x nd.s).1 = .ok ⟨2, o, t', x.data.map F⟩ ∧
      (execute nd.K x nd.s).2.outputDim = some o := by
  rw [execute_stable nd.K nd.s h.stable x h.pure, if_pos ⟨h2, by rw [h.inp, hc], hr⟩]
  refine ⟨?_, h.out⟩
  have : refcast nd.s.dtype x = ⟨2, d, t, x.data⟩ := by
    rw [refcast, h.dt, h2, hc]; rfl
  rw [this, h.rows]

theorem RowInvNode.exec {nd : Nd σ α β} {d o t t' : Nat} {F} (h : RowInvNode nd d o t t' F) (x : Arr α) (h2 : x.ndim = 2)
    (hc : x.cols = o) : (inverse nd.K x nd.s).1 = .ok ⟨2, d, t', x.data.map F⟩ ∧
      (inverse nd.K x nd.s).2.inputDim = some d := by
  rw [inverse_stable nd.K nd.s h.training (by rw [h.out]; simp) h.pure, if_neg (by simp [h.invertible]),
    if_pos ⟨h2, by rw [h.out, hc]⟩]
  refine ⟨?_, h.inp⟩
  have : refcast nd.s.dtype x = ⟨2, o, t, x.data⟩ := by
    rw [refcast, h.dt, h2, hc]; rfl
  rw [this, h.rows]

theorem colBlock_row (x : Arr α) (a w k : Nat) (hk : k < x.nrows) (F : List α → List α) :
    (((colBlock x a w).data.map F)[k]?).getD [] = F ((((x.data[k]?).getD []).drop a).take w) := by
  have hk' : k < x.data.length := hk
  simp [colBlock, List.getElem?_eq_getElem hk']

theorem Acc.congr {n c : Nat} {p q : Nat → List α} {z : Arr α} (h : Acc n c p (Option.some z)) (e : ∀ k, k < n → p k = q k) :
    Acc n c q (Option.some z) := by
  refine ⟨by simp, fun z' hz => ?_⟩
  obtain ⟨h1, h2, h3, h4⟩ := h.some z' hz
  exact ⟨h1, h2, h3, fun k hk => by rw [h4 k hk, e k hk]⟩

theorem execAll_replicate {nd : Nd σ α β} {d o t t' : Nat} {F} (h : RowNode nd d o t t' F) (x : Arr α) (hx : WF x)
    (hr : 0 < x.nrows) (m a c : Nat) (pre : Nat → List α) (y0 : Option (Arr α)) (hacc : Acc x.nrows c pre y0)
    (hdt : ∀ z, y0 = some z → z.dtype = t') (hm : y0 = none → 0 < m) (ha : a + m * d ≤ x.cols) :
    ∃ y, (execAll x y0 a (List.replicate m nd)).1 = .ok y ∧ y.dtype = t' ∧
      Acc x.nrows (c + m * o) (fun k => pre k ++
        ((blocks d m (((x.data[k]?).getD []).drop a)).map F).flatten) (some y) := by
  induction m generalizing a c pre y0 with
  | zero =>
    cases y0 with
    | none => exact absurd (hm rfl) (by omega)
    | some z => exact ⟨z, rfl, hdt z rfl, by simpa [blocks] using hacc⟩
  | succ m ih =>
    have e : (m + 1) * d = d + m * d := by ring
    rw [e] at ha
    have hb := colBlock_wf x hx a d (by omega)
    have hn := colBlock_nrows x a d
    obtain ⟨h1, h2⟩ := h.exec (colBlock x a d) hx.1 hb.2 (by omega)
    have hvn : (⟨2, o, t', (colBlock x a d).data.map F⟩ : Arr α).nrows = x.nrows := by
      simp [Arr.nrows, colBlock]
    obtain ⟨z, hz, hacc', hzd⟩ := store_exact x.nrows c o pre y0 _ hacc rfl hvn rfl
    obtain ⟨y, g1, g2, g3⟩ := ih (a + d) (c + o) _ (some z) hacc' (by
      intro z' hz'
      cases hz'
      cases y0 with
      | none => simpa using hzd
      | some y => simp only [Option.map_some, Option.some_or, Option.some.injEq] at hzd; rw [hzd]; exact hdt y rfl)
      (by simp) (by omega)
    refine ⟨y, ?_, g2, ?_⟩
    · rw [List.replicate_succ]
      simp only [execAll, h.out, h.inp]
      generalize execute nd.K (colBlock x a d) nd.s = R at h1
      obtain ⟨r, s⟩ := R
      simp only at h1
      subst h1
      simp only [hz]
      exact g1
    · have e2 : c + (m + 1) * o = c + o + m * o := by ring
      rw [e2]
      refine g3.congr fun k hk => ?_
      rw [colBlock_row x a d k hk F, List.append_assoc]
      congr 1
      simp only [blocks, List.range_succ_eq_map, List.map_cons, List.map_map, List.flatten_cons, Nat.zero_mul,
        List.drop_zero]
      congr 2
      apply List.map_congr_left
      intro j _
      simp only [Function.comp_apply, List.drop_drop]
      congr 3
      show a + d + j * d = a + (j + 1) * d
      ring

theorem invAll_replicate {nd : Nd σ α β} {d o t t' : Nat} {F} (h : RowInvNode nd d o t t' F) (x : Arr α) (hx : WF x)
    (m a c : Nat) (pre : Nat → List α) (y0 : Option (Arr α)) (hacc : Acc x.nrows c pre y0)
    (hdt : ∀ z, y0 = some z → z.dtype = t') (hm : y0 = none → 0 < m) (ha : a + m * o ≤ x.cols) :
    ∃ y, (invAll x y0 a (List.replicate m nd)).1 = .ok y ∧ y.dtype = t' ∧
      Acc x.nrows (c + m * d) (fun k => pre k ++
        ((blocks o m (((x.data[k]?).getD []).drop a)).map F).flatten) (some y) := by
  induction m generalizing a c pre y0 with
  | zero =>
    cases y0 with
    | none => exact absurd (hm rfl) (by omega)
    | some z => exact ⟨z, rfl, hdt z rfl, by simpa [blocks] using hacc⟩
  | succ m ih =>
    have e : (m + 1) * o = o + m * o := by ring
    rw [e] at ha
    have hb := colBlock_wf x hx a o (by omega)
    obtain ⟨h1, h2⟩ := h.exec (colBlock x a o) hx.1 hb.2
    have hvn : (⟨2, d, t', (colBlock x a o).data.map F⟩ : Arr α).nrows = x.nrows := by
      simp [Arr.nrows, colBlock]
    obtain ⟨z, hz, hacc', hzd⟩ := store_exact x.nrows c d pre y0 _ hacc rfl hvn rfl
    obtain ⟨y, g1, g2, g3⟩ := ih (a + o) (c + d) _ (some z) hacc' (by
      intro z' hz'
      cases hz'
      cases y0 with
      | none => simpa using hzd
      | some y => simp only [Option.map_some, Option.some_or, Option.some.injEq] at hzd; rw [hzd]; exact hdt y rfl)
      (by simp) (by omega)
    refine ⟨y, ?_, g2, ?_⟩
    · rw [List.replicate_succ]
      simp only [invAll, h.out, h.inp]
      generalize inverse nd.K (colBlock x a o) nd.s = R at h1
      obtain ⟨r, s⟩ := R
      simp only at h1
      subst h1
      simp only [hz]
      exact g1
    · have e2 : c + (m + 1) * d = c + d + m * d := by ring
      rw [e2]
      refine g3.congr fun k hk => ?_
      rw [colBlock_row x a o k hk F, List.append_assoc]
      congr 1
      simp only [blocks, List.range_succ_eq_map, List.map_cons, List.map_map, List.flatten_cons, Nat.zero_mul,
        List.drop_zero]
      congr 2
      apply List.map_congr_left
      intro j _
      simp only [Function.comp_apply, List.drop_drop]
      congr 3
      show a + o + j * o = a + (j + 1) * o
      ring

theorem acc_eq (y : Arr α) (rows : List (List α)) (f : List α → List α) (n c t : Nat) (hn : rows.length = n)
    (h : Acc n c (fun k => f ((rows[k]?).getD [])) (some y)) (hd : y.dtype = t) : y = ⟨2, c, t, rows.map f⟩ := by
  obtain ⟨h1, h2, h3, h4⟩ := h.some y rfl
  obtain ⟨yn, yc, yt, yd⟩ := y
  simp only [Arr.nrows] at *
  subst h1 h2 hd
  congr 1
  apply List.ext_getElem?
  intro k
  by_cases hk : k < n
  · rw [h4 k hk, List.getElem?_map]
    have hk' : k < rows.length := by omega
    simp [List.getElem?_eq_getElem hk']
  · rw [List.getElem?_eq_none (by omega), List.getElem?_eq_none (by simp; omega)]

/-- Both execute hooks give, in row `k`, the blocks of row `k` mapped by `F`. -/
theorem execAll_clone {nd : Nd σ α β} {d o t t' : Nat} {F} (h : RowNode nd d o t t' F) (n : Nat) (hn : 0 < n)
    (x : Arr α) (hx : WF x) (hc : x.cols = n * d) (hr : 0 < x.nrows) :
    (execAll x none 0 (List.replicate n nd)).1 =
      .ok ⟨2, n * o, t', x.data.map fun r => ((blocks d n r).map F).flatten⟩ := by
  obtain ⟨y, h1, h2, h3⟩ := execAll_replicate h x hx hr n 0 0 (fun _ => []) none
    ⟨fun _ => ⟨rfl, fun _ => rfl⟩, by simp⟩ (by simp) (fun _ => hn) (by omega)
  rw [h1]
  congr 1
  refine acc_eq y x.data (fun r => ((blocks d n r).map F).flatten) x.nrows (n * o) t' rfl ?_ h2
  simpa using h3

theorem invAll_clone {nd : Nd σ α β} {d o t t' : Nat} {F} (h : RowInvNode nd d o t t' F) (n : Nat) (hn : 0 < n)
    (x : Arr α) (hx : WF x) (hc : x.cols = n * o) :
    (invAll x none 0 (List.replicate n nd)).1 =
      .ok ⟨2, n * d, t', x.data.map fun r => ((blocks o n r).map F).flatten⟩ := by
  obtain ⟨y, h1, h2, h3⟩ := invAll_replicate h x hx n 0 0 (fun _ => []) none
    ⟨fun _ => ⟨rfl, fun _ => rfl⟩, by simp⟩ (by simp) (fun _ => hn) (by omega)
  rw [h1]
  congr 1
  refine acc_eq y x.data (fun r => ((blocks o n r).map F).flatten) x.nrows (n * d) t' rfl ?_ h2
  simpa using h3

theorem cloneExec_eq {nd : Nd σ α β} {d o t t' : Nat} {F} (h : RowNode nd d o t t' F) (n : Nat) (hn : 0 < n) (hd : 0 < d)
    (x : Arr α) (hx : WF x) (hc : x.cols = n * d) (hr : 0 < x.nrows) :
    (cloneExec n x nd).1 = .ok ⟨2, n * o, t', x.data.map fun r => ((blocks d n r).map F).flatten⟩ := by
  unfold cloneExec
  rw [h.inp]
  cases d with
  | zero => omega
  | succ d =>
    simp only [reshape_split x hx (d + 1) n hd hc]
    have hrows : 0 < (⟨2, d + 1, x.dtype, x.data.flatMap (blocks (d + 1) n)⟩ : Arr α).nrows := by
      simp only [Arr.nrows, length_flatMap_blocks]
      exact Nat.mul_pos hr hn
    obtain ⟨h1, h2⟩ := h.exec _ rfl rfl hrows
    generalize execute nd.K (⟨2, d + 1, x.dtype, x.data.flatMap (blocks (d + 1) n)⟩ : Arr α) nd.s = R at h1 h2
    obtain ⟨r, s⟩ := R
    simp only at h1 h2
    subst h1
    simp only [h2]
    exact reshape_join x.data F (d + 1) n o t' x.nrows rfl (fun r hr => (hx.2 r hr).trans hc) h.len

theorem cloneInv_eq {nd : Nd σ α β} {d o t t' : Nat} {F} (h : RowInvNode nd d o t t' F) (n : Nat) (hd : 0 < o)
    (x : Arr α) (hx : WF x) (hc : x.cols = n * o) :
    (cloneInv n x nd).1 = .ok ⟨2, n * d, t', x.data.map fun r => ((blocks o n r).map F).flatten⟩ := by
  unfold cloneInv
  rw [h.out]
  cases o with
  | zero => omega
  | succ o =>
    simp only [reshape_split x hx (o + 1) n hd hc]
    obtain ⟨h1, h2⟩ := h.exec (⟨2, o + 1, x.dtype, x.data.flatMap (blocks (o + 1) n)⟩ : Arr α) rfl rfl
    generalize inverse nd.K (⟨2, o + 1, x.dtype, x.data.flatMap (blocks (o + 1) n)⟩ : Arr α) nd.s = R at h1 h2
    obtain ⟨r, s⟩ := R
    simp only at h1 h2
    subst h1
    simp only [h2]
    exact reshape_join x.data F (o + 1) n d t' x.nrows rfl (fun r hr => (hx.2 r hr).trans hc) h.len

/-! ### The layers -/

theorem inDimSum_replicate (nd : Nd σ α β) (d n : Nat) (h : nd.s.inputDim = some d) :
    inDimSum (List.replicate n nd) = some (n * d) := by
  induction n with
  | zero => simp [inDimSum]
  | succ n ih =>
    rw [List.replicate_succ]
    simp only [inDimSum, h, ih, Option.map_some]
    congr 1; ring

theorem outDimSum_replicate (nd : Nd σ α β) (d n : Nat) (h : nd.s.outputDim = some d) :
    outDimSum (List.replicate n nd) = some (n * d) := by
  induction n with
  | zero => simp [outDimSum]
  | succ n ih =>
    rw [List.replicate_succ]
    simp only [outDimSum, h, ih, Option.map_some]
    congr 1; ring

theorem checkProps_replicate (nd : Nd σ α β) (n d t : Nat) (hn : 0 < n) (hi : nd.s.inputDim = some d)
    (ht : nd.s.dtype = some t) : checkProps (List.replicate n nd) none = .ok (some t) := by
  cases n with
  | zero => omega
  | succ n =>
    unfold checkProps
    rw [if_neg (by simp [List.replicate_succ, hi])]
    simp [List.replicate_succ, ht]

theorem setDtype_same (nd : Nd σ α β) (t : Nat) (ht : nd.s.dtype = some t) (hs : nd.K.supported t = true) :
    setDtype nd.K (some t) nd.s = (.ok (), nd.s) := by
  unfold setDtype
  simp only
  rw [if_neg (by simp [ht]), if_neg (by simp [hs])]
  obtain ⟨K, s⟩ := nd
  simp only at ht ⊢
  rw [← ht]

theorem setDtypes_same (nd : Nd σ α β) (n t : Nat) (ht : nd.s.dtype = some t) (hs : nd.K.supported t = true) :
    setDtypes t (List.replicate n nd) = (.ok (), List.replicate n nd) := by
  induction n with
  | zero => rfl
  | succ n ih =>
    rw [List.replicate_succ]
    simp only [setDtypes, setDtype_same nd t ht hs, ih]

theorem init_ok {σ : Type} (K : Kind σ α β) (i o t : Nat) (st : σ) (hp : K.preserveDim = false)
    (hs : K.supported t = true) : init K (some i) (some o) (some t) st =
      (.ok (), (⟨some i, some o, some t, K.trainable, if K.trainable then 0 else -1, false, st, []⟩ : St σ α β)) := by
  unfold init
  simp [M.bind_def, setInputDim, setInputDimRaw, setOutputDim, setOutputDimRaw, setDtype, hp, hs]

/-- The state of a new layer of trained nodes. -/
def freshSt {σ : Type} (i o t : Nat) (st : σ) : St σ α β :=
  { inputDim := some i, outputDim := some o, dtype := some t, training := false, phase := -1, started := false,
    st := st, trace := [] }

theorem freshSt_stable {σ : Type} (i o t : Nat) (st : σ) : Stable (freshSt (α := α) (β := β) i o t st) :=
  ⟨rfl, by simp [freshSt], by simp [freshSt], by simp [freshSt], by simp [freshSt]⟩

theorem layerInit_replicate (nd : Nd σ α β) (n d o t : Nat) (hn : 0 < n) (htr : nd.s.training = false)
    (hi : nd.s.inputDim = some d) (ho : nd.s.outputDim = some o) (ht : nd.s.dtype = some t)
    (hs : nd.K.supported t = true) :
    layerInit (List.replicate n nd) none =
      .ok ⟨layerKind (List.replicate n nd), freshSt (n * d) (n * o) t (List.replicate n nd)⟩ := by
  have hsup : (layerKind (List.replicate n nd)).supported t = true := by simp [layerKind, hs]
  have htrn : (layerKind (List.replicate n nd)).trainable = false := by simp [layerKind, htr]
  unfold layerInit
  simp only [checkProps_replicate nd n d t hn hi ht, setDtypes_same nd n t ht hs, inDimSum_replicate nd d n hi,
    outDimSum_replicate nd o n ho]
  rw [init_ok _ _ _ _ _ rfl hsup, htrn]
  rfl

theorem cloneInit_eq (nd : Nd σ α β) (n d o t : Nat) (hn : 0 < n) (htr : nd.s.training = false)
    (hi : nd.s.inputDim = some d) (ho : nd.s.outputDim = some o) (ht : nd.s.dtype = some t)
    (hs : nd.K.supported t = true) :
    cloneInit nd n none = .ok ⟨cloneKind nd n, freshSt (n * d) (n * o) t nd⟩ := by
  unfold cloneInit
  simp only [checkProps_replicate nd n d t hn hi ht, setDtype_same nd t ht hs, hi, ho, Option.map_some]
  rw [init_ok _ _ _ _ _ rfl (by simp [cloneKind, hs])]
  simp [cloneKind, htr, freshSt]

/-- Executing a trained composite node: the shape is checked, then the hook decides. -/
theorem execute_stable_res {σ : Type} (K : Kind σ α β) (s : St σ α β) (hs : Stable s) (x : Arr α)
    (hsets : ∀ x, (K.execHook s.st x).sets = []) :
    (execute K x s).1 = if x.ndim = 2 ∧ s.inputDim = some x.cols ∧ 0 < x.nrows then
      (K.execHook s.st (refcast s.dtype x)).res else .error .node := by
  have h1 : (M.when (s.phase = 0 ∧ s.started = false) (trainLoop K x) : NodeM σ α β Unit) s = (.ok (), s) := by
    simp [M.when, hs.touched]
  have hpe : preExecutionChecks K x s =
      if x.ndim = 2 ∧ s.inputDim = some x.cols ∧ 0 < x.nrows then (.ok (), s) else (.error .node, s) := by
    unfold preExecutionChecks
    simp only [M.bind_def, M.get_def]
    rw [h1]
    simp only [ifTrainingStopTraining, M.bind_def, M.get_def, hs.training]
    rw [if_neg (by simp)]
    simp only [M.pure_def, checkInput_stable K s hs.inp hs.dt]
    by_cases hc : x.ndim = 2 ∧ s.inputDim = some x.cols ∧ 0 < x.nrows
    · simp only [if_pos hc]; rw [when_false hs.out]; rfl
    · simp only [if_neg hc]
  unfold execute
  simp only [M.bind_def, hpe, M.get_def]
  by_cases hc : x.ndim = 2 ∧ s.inputDim = some x.cols ∧ 0 < x.nrows
  · simp only [if_pos hc, logged, runHook, M.bind_def, M.modify_def, hsets, runSets, M.pure_def, M.lift_def]
  · simp only [if_neg hc]

theorem inverse_stable_res {σ : Type} (K : Kind σ α β) (s : St σ α β) (htr : s.training = false)
    (hout : s.outputDim ≠ none) (hsets : ∀ x, (K.invHook s.st x).sets = []) (y : Arr α) :
    (inverse K y s).1 = if K.invertible = false then .error .notInvertible
      else if y.ndim = 2 ∧ s.outputDim = some y.cols then (K.invHook s.st (refcast s.dtype y)).res
      else .error .node := by
  have hpi : preInversionChecks K y s =
      if K.invertible = false then (.error .notInvertible, s)
      else if y.ndim = 2 ∧ s.outputDim = some y.cols then (.ok (), s) else (.error .node, s) := by
    unfold preInversionChecks
    split
    · rfl
    · simp only [ifTrainingStopTraining, M.bind_def, M.get_def, htr]
      rw [if_neg (by simp)]
      simp only [M.pure_def]
      rw [when_false hout]
      simp only [M.ret_def]
      unfold checkOutput
      by_cases h1 : y.ndim = 2
      · rw [if_neg (by simp [h1])]
        simp only [M.bind_def, M.get_def]
        by_cases h2 : s.outputDim = some y.cols
        · rw [if_neg (by simp [h2]), if_pos ⟨h1, h2⟩]; rfl
        · rw [if_pos h2, if_neg (by simp [h2])]; rfl
      · rw [if_pos h1, if_neg (by simp [h1])]; rfl
  unfold inverse
  simp only [M.bind_def, hpi, M.get_def]
  by_cases hk : K.invertible = false
  · simp only [if_pos hk]
  · simp only [if_neg hk]
    by_cases hc : y.ndim = 2 ∧ s.outputDim = some y.cols
    · simp only [if_pos hc, logged, runHook, M.bind_def, M.modify_def, hsets, runSets, M.pure_def, M.lift_def]
    · simp only [if_neg hc]

theorem withDtype_sets {r : Type} (t : Nat) (f : List (Nd σ α β) → Except Err r × List (Nd σ α β)) (ns) :
    (withDtype t f ns).sets = [] := by
  unfold withDtype
  split <;> rfl

theorem cloneWithDtype_sets {r : Type} (t : Nat) (f : Nd σ α β → Except Err r × Nd σ α β) (nd) :
    (cloneWithDtype t f nd).sets = [] := by
  unfold cloneWithDtype
  split <;> rfl

/-- C22: `CloneLayer(node, n)` and `Layer([node] * n)` execute in the same way, for every proper array (the
same result, or the same exception for an array of the wrong shape), for a trained node that works row by row.
The input dimension of the node must not be 0: `CloneLayer` divides by it. -/
theorem clone_execute (nd : Nd σ α β) (d o t t' : Nat) (F : List α → List α) (h : RowNode nd d o t t' F) (hd : 0 < d)
    (n : Nat) (hn : 0 < n) (x : Arr α) (hx : x.ndim = 2 → WF x) :
    ∃ L C, layerInit (List.replicate n nd) none = .ok L ∧ cloneInit nd n none = .ok C ∧
      (CloneLayer.execute C.K n x C.s).1 = (Layer.execute L.K x L.s).1 ∧
      (x.ndim = 2 → x.cols = n * d → 0 < x.nrows → (Layer.execute L.K x L.s).1 =
        .ok ⟨2, n * o, t', x.data.map fun r => ((blocks d n r).map F).flatten⟩) := by
  refine ⟨_, _, layerInit_replicate nd n d o t hn h.stable.training h.inp h.out h.dt h.sup,
    cloneInit_eq nd n d o t hn h.stable.training h.inp h.out h.dt h.sup, ?_⟩
  have hL : (Layer.execute (layerKind (List.replicate n nd)) x (freshSt (n * d) (n * o) t (List.replicate n nd))).1 =
      if x.ndim = 2 ∧ some (n * d) = some x.cols ∧ 0 < x.nrows then
        (execAll (refcast (some t) x) none 0 (List.replicate n nd)).1 else .error .node := by
    unfold Layer.execute
    rw [M.bind_def]
    have : preWith (layerKind (List.replicate n nd))
        (fun ns => if x.ndim ≠ 2 then (.error .index, ns) else preAll x 0 ns)
        (freshSt (n * d) (n * o) t (List.replicate n nd)) =
        (.ok (), freshSt (n * d) (n * o) t (List.replicate n nd)) := rfl
    rw [this]
    simp only
    rw [execute_stable_res _ _ (freshSt_stable _ _ _ _) x (fun x => withDtype_sets _ _ _)]
    have hh : ((layerKind (List.replicate n nd)).execHook (List.replicate n nd) (refcast (some t) x)).res =
        (execAll (refcast (some t) x) none 0 (List.replicate n nd)).1 := by
      have : (refcast (some t) x).dtype = t := rfl
      simp only [layerKind, withDtype, this, setDtypes_same nd n t h.dt h.sup]
    simp only [freshSt, hh]
  have hC : (CloneLayer.execute (cloneKind nd n) n x (freshSt (n * d) (n * o) t nd)).1 =
      if x.ndim = 2 ∧ some (n * d) = some x.cols ∧ 0 < x.nrows then
        (cloneExec n (refcast (some t) x) nd).1 else .error .node := by
    have : CloneLayer.execute (cloneKind nd n) n x (freshSt (n * d) (n * o) t nd) =
        execute (cloneKind nd n) x (freshSt (n * d) (n * o) t nd) := rfl
    rw [this]
    rw [execute_stable_res _ _ (freshSt_stable _ _ _ _) x (fun x => cloneWithDtype_sets _ _ _)]
    have hh : ((cloneKind nd n).execHook nd (refcast (some t) x)).res = (cloneExec n (refcast (some t) x) nd).1 := by
      have : (refcast (some t) x).dtype = t := rfl
      simp only [cloneKind, cloneWithDtype, this, setDtype_same nd t h.dt h.sup]
    simp only [freshSt, hh]
  simp only [hL, hC]
  by_cases hc : x.ndim = 2 ∧ some (n * d) = some x.cols ∧ 0 < x.nrows
  · simp only [if_pos hc]
    have hwf : WF (refcast (some t) x) := hx hc.1
    have hcols : (refcast (some t) x).cols = n * d := (Option.some.inj hc.2.1).symm
    have hrow : 0 < (refcast (some t) x).nrows := hc.2.2
    rw [execAll_clone h n hn _ hwf hcols hrow, cloneExec_eq h n hn hd _ hwf hcols hrow]
    exact ⟨by simp, fun _ _ _ => rfl⟩
  · simp only [if_neg hc]
    refine ⟨by simp, fun h1 h2 h3 => absurd ⟨h1, by rw [h2], h3⟩ hc⟩

/-- C22 for the inverse. The output dimension must not be 0. -/
theorem clone_inverse (nd : Nd σ α β) (d o t t' : Nat) (G : List α → List α) (h : RowInvNode nd d o t t' G) (ho : 0 < o)
    (n : Nat) (hn : 0 < n) (y : Arr α) (hy : y.ndim = 2 → WF y) :
    ∃ L C, layerInit (List.replicate n nd) none = .ok L ∧ cloneInit nd n none = .ok C ∧
      (inverse C.K y C.s).1 = (inverse L.K y L.s).1 ∧
      (y.ndim = 2 → y.cols = n * o → (inverse L.K y L.s).1 =
        .ok ⟨2, n * d, t', y.data.map fun r => ((blocks o n r).map G).flatten⟩) := by
  refine ⟨_, _, layerInit_replicate nd n d o t hn h.training h.inp h.out h.dt h.sup,
    cloneInit_eq nd n d o t hn h.training h.inp h.out h.dt h.sup, ?_⟩
  have hiL : (layerKind (List.replicate n nd)).invertible = true := by simp [layerKind, h.invertible]
  have hiC : (cloneKind nd n).invertible = true := h.invertible
  have hL : (inverse (layerKind (List.replicate n nd)) y (freshSt (n * d) (n * o) t (List.replicate n nd))).1 =
      if y.ndim = 2 ∧ some (n * o) = some y.cols then
        (invAll (refcast (some t) y) none 0 (List.replicate n nd)).1 else .error .node := by
    rw [inverse_stable_res _ _ rfl (by simp [freshSt]) (fun x => rfl), if_neg (by rw [hiL]; simp)]
    rfl
  have hC : (inverse (cloneKind nd n) y (freshSt (n * d) (n * o) t nd)).1 =
      if y.ndim = 2 ∧ some (n * o) = some y.cols then
        (cloneInv n (refcast (some t) y) nd).1 else .error .node := by
    rw [inverse_stable_res _ _ rfl (by simp [freshSt]) (fun x => rfl), if_neg (by rw [hiC]; simp)]
    rfl
  simp only [hL, hC]
  by_cases hc : y.ndim = 2 ∧ some (n * o) = some y.cols
  · simp only [if_pos hc]
    have hwf : WF (refcast (some t) y) := hy hc.1
    have hcols : (refcast (some t) y).cols = n * o := (Option.some.inj hc.2).symm
    rw [invAll_clone h n hn _ hwf hcols, cloneInv_eq h n ho _ hwf hcols]
    exact ⟨by simp, fun _ _ => rfl⟩
  · simp only [if_neg hc]
    exact ⟨by simp, fun h1 h2 => absurd ⟨h1, by rw [h2]⟩ hc⟩

end Mdp.Layer
