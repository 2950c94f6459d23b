import Verif.Bi.GradientNodes

/-!
# Properties of the gradient extension (C151, C152)
-/

namespace Bi.Gradient

/-! ### Layers -/

theorem bidx_lt {l i : Nat} (h : i < l) : bidx l i = i := by
  unfold bidx
  split <;> omega

theorem layLoop_good (inDim outDim : Nat) (x : List ℝ) (hx : x.length = inDim) : ∀ (Ns : List (GNode ℝ)) (i0 o0 : Nat)
    (g : Option (Jac ℝ)), (∀ N ∈ Ns, Good N) → i0 + (Ns.map GNode.inDim).sum ≤ inDim →
    o0 + (Ns.map GNode.outDim).sum ≤ outDim → (g.getD (zeros ℝ outDim inDim)).rows = outDim →
    (g.getD (zeros ℝ outDim inDim)).cols = inDim →
    (∀ k, o0 ≤ k → ∀ j, (g.getD (zeros ℝ outDim inDim)).e k j = 0) →
    ∃ g', layLoop outDim inDim x Ns i0 o0 g = .ok g' ∧ (g'.isSome = (g.isSome || !Ns.isEmpty)) ∧
      (g'.getD (zeros ℝ outDim inDim)).rows = outDim ∧ (g'.getD (zeros ℝ outDim inDim)).cols = inDim ∧
      (∀ k < o0, ∀ j, (g'.getD (zeros ℝ outDim inDim)).e k j = (g.getD (zeros ℝ outDim inDim)).e k j) ∧
      IsJac (fun v => layExec v Ns i0) inDim (Ns.map GNode.outDim).sum x
        ⟨(Ns.map GNode.outDim).sum, inDim, fun k j => (g'.getD (zeros ℝ outDim inDim)).e (o0 + k) j⟩ := by
  intro Ns
  induction Ns with
  | nil =>
    intro i0 o0 g _ _ _ hr hc _
    exact ⟨g, rfl, by simp, hr, hc, fun _ _ _ => rfl, isJac_nil inDim x _⟩
  | cons N Ns ih =>
    intro i0 o0 g hN hi ho hr hc hz
    simp only [List.map_cons, List.sum_cons] at hi ho
    have hs := isJac_slice inDim i0 (i0 + N.inDim) (by omega) x
    rw [Nat.add_sub_cancel_left] at hs
    have hl : (slice x i0 (i0 + N.inDim)).length = N.inDim := hs.len x hx
    obtain ⟨V, hV1, hV2⟩ := hN N (List.mem_cons_self ..) _ hl
    have hcomp := hs.comp hx hV2
    have hset : setBlock (g.getD (zeros ℝ outDim inDim)) o0 (o0 + N.outDim) i0 (i0 + N.inDim) V =
        .ok ⟨outDim, inDim, fun k j => if o0 ≤ k ∧ k < o0 + N.outDim ∧ i0 ≤ j ∧ j < i0 + N.inDim then
          V.e (bidx V.rows (k - o0)) (bidx V.cols (j - i0)) else (g.getD (zeros ℝ outDim inDim)).e k j⟩ := by
      have e1 : min (o0 + N.outDim) outDim = o0 + N.outDim := by omega
      have e2 : min (i0 + N.inDim) inDim = i0 + N.inDim := by omega
      simp only [setBlock, hr, hc, e1, e2, hV2.rows, hV2.cols, Nat.add_sub_cancel_left, fits, beq_self_eq_true,
        Bool.true_or, Bool.and_self, if_true]
    obtain ⟨g', h1, h2, h3, h4, h5, h6⟩ := ih (i0 + N.inDim) (o0 + N.outDim) (some ⟨outDim, inDim, fun k j =>
        if o0 ≤ k ∧ k < o0 + N.outDim ∧ i0 ≤ j ∧ j < i0 + N.inDim then
          V.e (bidx V.rows (k - o0)) (bidx V.cols (j - i0)) else (g.getD (zeros ℝ outDim inDim)).e k j⟩)
      (fun M hM => hN M (List.mem_cons_of_mem _ hM)) (by omega) (by omega) rfl rfl (by
        intro k hk j
        show (if _ then _ else _) = _
        rw [if_neg (by omega)]
        exact hz k (by omega) j)
    refine ⟨g', ?_, ?_, h3, h4, ?_, ?_⟩
    · simp only [layLoop, hV1, hset, h1]
    · simpa using h2
    · intro k hk j
      rw [h5 k (by omega) j]
      show (if _ then _ else _) = _
      rw [if_neg (by omega)]
    · have happ := hcomp.append h6
      refine happ.congr rfl rfl ?_ (fun _ _ => rfl)
      intro k hk j hj
      show (g'.getD (zeros ℝ outDim inDim)).e (o0 + k) j = if k < N.outDim then _ else _
      split
      · rename_i hkN
        rw [h5 (o0 + k) (by omega) j]
        show (if _ then _ else _) = ∑ l ∈ Finset.range N.inDim, V.e k l * (if i0 + l = j then 1 else 0)
        by_cases hji : i0 ≤ j ∧ j < i0 + N.inDim
        · rw [if_pos ⟨by omega, by omega, hji.1, hji.2⟩, hV2.rows, hV2.cols, bidx_lt (by omega), bidx_lt (by omega),
            Finset.sum_eq_single (j - i0)]
          · rw [if_pos (by omega), mul_one, Nat.add_sub_cancel_left]
          · intro l _ hl
            rw [if_neg (by omega), mul_zero]
          · intro h
            exact absurd (Finset.mem_range.2 (by omega)) h
        · rw [if_neg (by omega), hz _ (by omega)]
          symm
          refine Finset.sum_eq_zero fun l hl => ?_
          rw [Finset.mem_range] at hl
          rw [if_neg (by omega), mul_zero]
      · show _ = (g'.getD (zeros ℝ outDim inDim)).e (o0 + N.outDim + (k - N.outDim)) j
        rw [show o0 + N.outDim + (k - N.outDim) = o0 + k by omega]

/-- **C151**: the gradient of a layer (of at least one node). The nodes may be layers. -/
theorem layer_good (Ns : List (GNode ℝ)) (h : ∀ N ∈ Ns, Good N) (hne : Ns ≠ []) : Good (layer Ns) := by
  intro x hx
  obtain ⟨g', h1, h2, h3, h4, -, h6⟩ := layLoop_good (Ns.map GNode.inDim).sum (Ns.map GNode.outDim).sum x hx Ns 0 0 none h
    (by omega) (by omega) rfl rfl (fun _ _ _ => rfl)
  cases g' with
  | none =>
    cases Ns with
    | nil => exact absurd rfl hne
    | cons _ _ => simp at h2
  | some J =>
    refine ⟨J, ?_, ?_⟩
    · show layGrad _ _ Ns x = _
      rw [layGrad, h1]
    · refine h6.congr h3 h4 ?_ (fun _ _ => rfl)
      intro k _ j _
      show J.e k j = J.e (0 + k) j
      rw [Nat.zero_add]

/-! ### Flows -/

/-- **Specification**: nodes of a flow that take `i` and give `o` entries, with all dimensions as they have to be. -/
inductive Fits : El ℝ → Nat → Nat → Prop
  | node {N} (h : Good N) (ht : N.training = false) : Fits (.node N) N.inDim N.outDim
  | switch {d : Nat} {conns : List Nat} (h : ∀ c ∈ conns, c < d) : Fits (.switch d conns) d conns.length
  | clone {N n} (h : Good N) (ht : N.training = false) (hd : 1 ≤ N.inDim) (hn : 1 ≤ n) :
      Fits (.clone N n) (n * N.inDim) (n * N.outDim)

/-- **Specification**: the dimensions of neighbours are the same. -/
inductive Chain : List (El ℝ) → Nat → Nat → Prop
  | nil {d} : Chain [] d d
  | cons {E Es i m o} (h : Fits E i m) (hs : Chain Es m o) : Chain (E :: Es) i o

theorem select_isJac {f : List ℝ → List ℝ} {i m : Nat} {x : List ℝ} {g : Jac ℝ} (hf : IsJac f i m x g) (hx : x.length = i)
    (c : List Nat) (hc : ∀ a ∈ c, a < m) :
    IsJac (fun v => c.map fun k => (f v).getD k 0) i c.length x ⟨c.length, i, fun k j => g.e (c.getD k 0) j⟩ := by
  refine (hf.comp hx (isJac_select m c hc (f x))).congr rfl rfl ?_ (fun _ _ => rfl)
  intro k hk j _
  show g.e (c.getD k 0) j = ∑ l ∈ Finset.range m, (if c.getD k 0 = l then 1 else 0) * g.e l j
  have hm : c.getD k 0 < m := by
    rw [List.getD_eq_getElem?_getD, List.getElem?_eq_getElem hk]
    exact hc _ (List.getElem_mem hk)
  rw [Finset.sum_eq_single (c.getD k 0)]
  · simp
  · intro l _ hl
    rw [if_neg (Ne.symm hl), zero_mul]
  · intro h
    exact absurd (Finset.mem_range.2 hm) h

theorem slice_isJac {f : List ℝ → List ℝ} {i m : Nat} {x : List ℝ} {g : Jac ℝ} (hf : IsJac f i m x g) (hx : x.length = i)
    (a b : Nat) (hb : b ≤ m) :
    IsJac (fun v => slice (f v) a b) i (b - a) x ⟨b - a, i, fun k j => g.e (a + k) j⟩ := by
  have h := select_isJac hf hx (List.range' a (b - a)) (by
    intro c hc
    rw [List.mem_range'_1] at hc
    omega)
  rw [List.length_range'] at h
  refine h.congr rfl rfl ?_ (fun v hv => slice_select m a b hb _ (hf.len v hv))
  intro k hk j _
  simp [List.getD_eq_getElem?_getD, hk]

theorem gradient_ok {N : GNode ℝ} (hN : Good N) (ht : N.training = false) {f : List ℝ → List ℝ} {i : Nat} {x : List ℝ}
    {g : Jac ℝ} (hf : IsJac f i N.inDim x g) (hx : x.length = i) :
    ∃ D, gradient N (f x) (some g) = .ok (N.exec (f x), D) ∧ IsJac (fun v => N.exec (f v)) i N.outDim x D := by
  obtain ⟨K, h1, h2⟩ := hN (f x) (hf.len x hx)
  obtain ⟨D, h3, h4⟩ := comp_good hx hf h2
  refine ⟨D, ?_, h4⟩
  simp only [gradient, ht, initGrad, h1]
  show (do let g ← dot K g; pure (N.exec (f x), g) : Except Err _) = _
  rw [h3]
  rfl

theorem cloneLoop_ok {N : GNode ℝ} (hN : Good N) (ht : N.training = false) {f : List ℝ → List ℝ} {i tot : Nat} {x : List ℝ}
    {g : Jac ℝ} (htot : 1 ≤ tot) (hf : IsJac f i (tot * N.inDim) x g) (hx : x.length = i) : ∀ n k, k + n = tot →
    ∃ D, cloneLoop N tot (f x) (some g) k n = .ok (cloneExec N tot (f x) k n, D) ∧ (D.isSome = decide (0 < n)) ∧
      (∀ J, D = some J → IsJac (fun v => cloneExec N tot (f v) k n) i (n * N.outDim) x J) := by
  intro n
  induction n with
  | zero => intro k _; exact ⟨none, rfl, rfl, fun J h => absurd h (by simp)⟩
  | succ n ih =>
    intro k hk
    obtain ⟨D, h1, h2, h3⟩ := ih (k + 1) (by omega)
    have hdiv : ∀ v : List ℝ, v.length = i → (f v).length / tot = N.inDim := by
      intro v hv
      rw [hf.len v hv]
      exact Nat.mul_div_cancel_left _ (by omega)
    have hrows : g.rows / tot = N.inDim := by
      rw [hf.rows]
      exact Nat.mul_div_cancel_left _ (by omega)
    have hb : N.inDim * (k + 1) ≤ tot * N.inDim := by
      rw [Nat.mul_comm tot]
      exact Nat.mul_le_mul_left _ (by omega)
    have hdif : N.inDim * (k + 1) - N.inDim * k = N.inDim := by
      rw [Nat.mul_succ]; omega
    have hs := slice_isJac hf hx (N.inDim * k) (N.inDim * (k + 1)) hb
    rw [hdif] at hs
    obtain ⟨E, h4, h5⟩ := gradient_ok hN ht hs hx
    have hsplit : splitGrad tot k (some g) = some ⟨N.inDim, i, fun a j => g.e (N.inDim * k + a) j⟩ := by
      rw [splitGrad, if_pos (by rw [hf.rows]; simp), hrows, hf.cols, Nat.mul_comm k]
    have hexec : ∀ v : List ℝ, v.length = i → cloneExec N tot (f v) k (n + 1) =
        N.exec (slice (f v) (N.inDim * k) (N.inDim * (k + 1))) ++ cloneExec N tot (f v) (k + 1) n := by
      intro v hv
      rw [cloneExec, hdiv v hv]
    have hmul : (n + 1) * N.outDim = N.outDim + n * N.outDim := by ring
    rw [hexec x hx]
    simp only [cloneLoop, hdiv x hx, hsplit, h4, h1]
    cases D with
    | none =>
      have hn : n = 0 := by
        by_contra hn
        simp at h2
        omega
      subst hn
      refine ⟨some E, rfl, rfl, ?_⟩
      intro J hJ
      injection hJ with hJ
      subst hJ
      rw [hmul, Nat.zero_mul, Nat.add_zero]
      refine h5.congr h5.rows h5.cols (fun _ _ _ _ => rfl) ?_
      intro v hv
      rw [hexec v hv, cloneExec, List.append_nil]
    | some J =>
      have h6 := h3 J rfl
      refine ⟨some ⟨E.rows + J.rows, E.cols, fun k j => if k < E.rows then E.e k j else J.e (k - E.rows) j⟩, ?_, rfl, ?_⟩
      · have hst : stackRows E J = .ok ⟨E.rows + J.rows, E.cols, fun k j => if k < E.rows then E.e k j else J.e (k - E.rows) j⟩ := by
          rw [stackRows, if_pos (by rw [h5.cols, h6.cols])]
        show (do let J' ← stackRows E J; pure _ : Except Err _) = _
        rw [hst]
        rfl
      · intro J' hJ'
        injection hJ' with hJ'
        subst hJ'
        rw [hmul]
        refine (h5.append h6).congr (show E.rows + J.rows = _ by rw [h5.rows, h6.rows]) h5.cols ?_ hexec
        intro a _ j _
        simp only [h5.rows]

theorem el_ok {E : El ℝ} {m o : Nat} (hE : Fits E m o) {f : List ℝ → List ℝ} {i : Nat} {x : List ℝ} {g : Jac ℝ}
    (hf : IsJac f i m x g) (hx : x.length = i) :
    ∃ D, E.gradient (f x) (some g) = .ok (E.exec (f x), D) ∧ IsJac (fun v => E.exec (f v)) i o x D := by
  cases hE with
  | node h ht => exact gradient_ok h ht hf hx
  | @switch _ conns h =>
    refine ⟨_, ?_, select_isJac hf hx conns h⟩
    have hall : (conns.all fun c => decide (c < g.rows)) = true := by
      rw [List.all_eq_true]
      intro c hc
      rw [hf.rows]
      simpa using h c hc
    simp only [El.gradient, switchGradient, initGrad]
    show (if (conns.all fun c => decide (c < g.rows)) = true then _ else _ : Except Err _) = _
    rw [if_pos hall, hf.cols]
    rfl
  | @clone N n h ht hd hn =>
    obtain ⟨D, h1, h2, h3⟩ := cloneLoop_ok h ht hn hf hx n 0 (by omega)
    cases D with
    | none => simp at h2; omega
    | some J =>
      refine ⟨J, ?_, h3 J rfl⟩
      simp only [El.gradient, cloneGradient, h1]
      rfl

theorem flow_ok {Es : List (El ℝ)} : ∀ {m o : Nat}, Chain Es m o → ∀ {f : List ℝ → List ℝ} {i : Nat} {x : List ℝ} {g : Jac ℝ},
    IsJac f i m x g → x.length = i →
    ∃ D, gradFlow Es (f x) (some g) = .ok (execFlow Es (f x), some D) ∧ IsJac (fun v => execFlow Es (f v)) i o x D := by
  induction Es with
  | nil =>
    intro m o hc f i x g hf hx
    cases hc
    exact ⟨g, rfl, hf⟩
  | cons E Es ih =>
    intro m o hc f i x g hf hx
    cases hc with
    | cons hE hs =>
      obtain ⟨D, h1, h2⟩ := el_ok hE hf hx
      obtain ⟨D', h3, h4⟩ := ih hs h2 hx
      refine ⟨D', ?_, h4⟩
      simp only [gradFlow, h1]
      exact h3

/-- **C151**: with `method: 'gradient'` a flow that starts with a node or a switchboard returns the result of `execute`, and
`grad` is the Jacobian matrix of the whole flow at `x`. -/
theorem flow_gradient {E : El ℝ} {Es : List (El ℝ)} {i o : Nat} (h : Chain (E :: Es) i o)
    (hfirst : ∀ N n, E = .clone N n → n = 1) (x : List ℝ) (hx : x.length = i) :
    ∃ J, gradFlow (E :: Es) x none = .ok (execFlow (E :: Es) x, some J) ∧ IsJac (execFlow (E :: Es)) i o x J := by
  have hid := isJac_id i x
  obtain ⟨J, h1, h2⟩ := flow_ok h hid hx
  refine ⟨J, ?_, h2⟩
  have hsd := setDiag_ok i i i (le_refl i) (le_refl i)
  suffices h3 : E.gradient x none = E.gradient x (some ⟨i, i, fun k j => if k = j ∧ k < i then 1 else 0⟩) by
    simp only [gradFlow, h3]
    exact h1
  cases h with
  | cons hE hs =>
    cases hE with
    | node hN ht => simp only [El.gradient, gradient, initGrad, hsd]
    | switch hc => simp only [El.gradient, switchGradient, initGrad, hsd]
    | @clone N n hN ht hd hn =>
      have hn1 := hfirst N n rfl
      subst hn1
      rw [Nat.one_mul] at hsd
      simp only [El.gradient, cloneGradient, cloneLoop, splitGrad, Nat.mod_one, if_true, gradient, initGrad, Nat.one_mul,
        Nat.div_one, Nat.zero_mul, Nat.zero_add, hsd]

/-- **C151**: what makes a network has gradients: the nodes of the flow theorem exist. Nodes without training are never in training, a
layer is so if one of its nodes is. -/
theorem nodes_good : (∀ d, Good (identity ℝ d)) ∧ (∀ i o sf bias, Good (sfa i o sf bias)) ∧ (∀ d, Good (quad ℝ d)) ∧
    (∀ d o sf bias, Good (sfa2 d o sf bias)) ∧ (∀ Ns : List (GNode ℝ), (∀ N ∈ Ns, Good N) → Ns ≠ [] → Good (layer Ns)) ∧
    (∀ d, (identity ℝ d).training = false ∧ (quad ℝ d).training = false) ∧
    ∀ Ns : List (GNode ℝ), (layer Ns).training = true ↔ ∃ N ∈ Ns, N.training = true :=
  ⟨identity_good, sfa_good, quad_good, sfa2_good, layer_good, fun _ => ⟨rfl, rfl⟩, fun _ => List.any_eq_true⟩

/-- **C151**: a node that is still in training refuses, and so does a node without a gradient. -/
theorem gradient_refused (N : GNode ℝ) (x : List ℝ) (g : Option (Jac ℝ)) : (N.training = true → gradient N x g = .error .training) ∧
    (∀ i o f, gradient (noGrad i o f) x (some ⟨i, i, fun _ _ => (0 : ℝ)⟩) = .error .notImplemented) := by
  refine ⟨fun h => ?_, fun i o f => ?_⟩
  · simp only [gradient, h]
    rfl
  · simp only [gradient, noGrad]
    rfl

/-- **C151**: a clone layer refuses if its node is in training, and without nodes. -/
theorem clone_refused (N : GNode ℝ) (x : List ℝ) (g : Option (Jac ℝ)) :
    (∀ n, 1 ≤ n → N.training = true → El.gradient (.clone N n) x g = .error .training) ∧ El.gradient (.clone N 0) x g = .error .value := by
  refine ⟨fun n hn h => ?_, rfl⟩
  obtain ⟨m, rfl⟩ := Nat.exists_eq_succ_of_ne_zero (Nat.one_le_iff_ne_zero.1 hn)
  simp only [El.gradient, cloneGradient, cloneLoop, (gradient_refused N _ _).1 h]
  rfl

example : El.gradient (.clone { quad ℝ 2 with training := true } 3) [1, 2, 3, 4, 5, 6] none = .error .training :=
  (clone_refused _ _ _).1 3 (by decide) rfl

/-- Two layers, a switchboard that mixes their outputs, and a quadratic expansion on top. -/
example (sf : Nat → Nat → ℝ) (bias : Nat → ℝ) : ∃ J, gradFlow
    [.node (layer [identity ℝ 1, sfa2 2 2 sf bias]), .switch 3 [2, 0, 1, 1], .clone (quad ℝ 2) 2] [5, 7, -1] none =
      .ok (execFlow [.node (layer [identity ℝ 1, sfa2 2 2 sf bias]), .switch 3 [2, 0, 1, 1], .clone (quad ℝ 2) 2] [5, 7, -1],
        some J) ∧ J.rows = 10 ∧ J.cols = 3 := by
  have hq : (quad ℝ 2).outDim = 5 := outDim_eq 2
  have hg : Good (layer [identity ℝ 1, sfa2 2 2 sf bias]) := layer_good _ (by
    intro N hN
    simp only [List.mem_cons, List.not_mem_nil, or_false] at hN
    rcases hN with rfl | rfl
    · exact identity_good 1
    · exact sfa2_good 2 2 sf bias) (by simp)
  have hc : Chain [.node (layer [identity ℝ 1, sfa2 2 2 sf bias]), .switch 3 [2, 0, 1, 1], .clone (quad ℝ 2) 2] 3 (2 * 5) := by
    refine .cons (.node hg rfl) (.cons (.switch (by decide)) (.cons ?_ .nil))
    rw [← hq]
    exact .clone (quad_good 2) rfl (by decide) (by decide)
  obtain ⟨J, h1, h2⟩ := flow_gradient hc (by intro N n h; cases h) [5, 7, -1] rfl
  exact ⟨J, h1, h2.rows, h2.cols⟩

/-! ### Where the gradient is wrong -/

theorem cloneLoop_none {N : GNode ℝ} (hN : Good N) (ht : N.training = false) {tot : Nat} {x : List ℝ} (htot : 1 ≤ tot)
    (hx : x.length = tot * N.inDim) : ∀ n k, k + n = tot →
    ∃ D, cloneLoop N tot x none k n = .ok (cloneExec N tot x k n, D) ∧ (D.isSome = decide (0 < n)) ∧
      (∀ J, D = some J → J.rows = n * N.outDim ∧ J.cols = N.inDim) := by
  intro n
  induction n with
  | zero => intro k _; exact ⟨none, rfl, rfl, fun J h => absurd h (by simp)⟩
  | succ n ih =>
    intro k hk
    obtain ⟨D, h1, h2, h3⟩ := ih (k + 1) (by omega)
    have hdiv : x.length / tot = N.inDim := by
      rw [hx]
      exact Nat.mul_div_cancel_left _ (by omega)
    have hb : N.inDim * (k + 1) ≤ tot * N.inDim := by
      rw [Nat.mul_comm tot]
      exact Nat.mul_le_mul_left _ (by omega)
    have hl : (slice x (N.inDim * k) (N.inDim * (k + 1))).length = N.inDim := by
      simp only [slice, List.length_drop, List.length_take, hx]
      rw [Nat.min_eq_left hb, Nat.mul_succ]
      omega
    obtain ⟨E, h4, h5⟩ := gradient_ok hN ht (isJac_id N.inDim (slice x (N.inDim * k) (N.inDim * (k + 1)))) hl
    have h4' : gradient N (slice x (N.inDim * k) (N.inDim * (k + 1))) none =
        .ok (N.exec (slice x (N.inDim * k) (N.inDim * (k + 1))), E) := by
      rw [← h4]
      simp only [gradient, initGrad, setDiag_ok N.inDim N.inDim N.inDim (le_refl _) (le_refl _)]
    have hmul : (n + 1) * N.outDim = N.outDim + n * N.outDim := by ring
    simp only [cloneLoop, cloneExec, hdiv, splitGrad, h4', h1]
    cases D with
    | none =>
      have hn : n = 0 := by
        by_contra hn
        simp at h2
        omega
      subst hn
      refine ⟨some E, ?_, rfl, ?_⟩
      · show Except.ok _ = Except.ok _
        simp [cloneExec]
      · intro J hJ
        injection hJ with hJ
        subst hJ
        exact ⟨by rw [hmul, h5.rows]; simp, h5.cols⟩
    | some J =>
      obtain ⟨h6, h7⟩ := h3 J rfl
      refine ⟨some ⟨E.rows + J.rows, E.cols, fun k j => if k < E.rows then E.e k j else J.e (k - E.rows) j⟩, ?_, rfl, ?_⟩
      · have hst : stackRows E J = .ok ⟨E.rows + J.rows, E.cols, fun k j => if k < E.rows then E.e k j else J.e (k - E.rows) j⟩ := by
          rw [stackRows, if_pos (by rw [h5.cols, h7])]
        show (do let J' ← stackRows E J; pure _ : Except Err _) = _
        rw [hst]
        rfl
      · intro J' hJ'
        injection hJ' with hJ'
        subst hJ'
        exact ⟨by rw [hmul]; show E.rows + J.rows = _; rw [h5.rows, h6], h5.cols⟩

/-- **C152**: a `CloneBiLayer` of two or more nodes at the start of a flow gives a `grad` of the wrong shape, without an
error: it has one column for every input of one node. -/
theorem clone_first_false {N : GNode ℝ} {n : Nat} (hN : Good N) (ht : N.training = false) (hd : 1 ≤ N.inDim) (hn : 2 ≤ n)
    (x : List ℝ) (hx : x.length = n * N.inDim) :
    ∃ J, gradFlow [.clone N n] x none = .ok (execFlow [.clone N n] x, some J) ∧ J.rows = n * N.outDim ∧ J.cols = N.inDim ∧
      ¬ IsJac (execFlow [.clone N n]) (n * N.inDim) (n * N.outDim) x J := by
  obtain ⟨D, h1, h2, h3⟩ := cloneLoop_none hN ht (by omega) hx n 0 (by omega)
  cases D with
  | none => simp at h2; omega
  | some J =>
    obtain ⟨h4, h5⟩ := h3 J rfl
    refine ⟨J, ?_, h4, h5, ?_⟩
    · simp only [gradFlow, El.gradient, cloneGradient, h1]
      rfl
    · intro h
      have := h.cols
      rw [h5] at this
      have h6 : 2 * N.inDim ≤ n * N.inDim := Nat.mul_le_mul_right _ hn
      omega

example : ∃ J, gradFlow [.clone (identity ℝ 1) 2] [3, 4] none = .ok ([3, 4], some J) ∧ J.rows = 2 ∧ J.cols = 1 := by
  obtain ⟨J, h1, h2, h3, -⟩ := clone_first_false (identity_good 1) rfl (by decide) (le_refl 2) [3, 4] rfl
  exact ⟨J, h1, h2, h3⟩

/-- **C152**: a `SameInputLayer` of two nodes has no gradient if its input has two or more entries. -/
theorem same_input_error (A B : GNode ℝ) (d : Nat) (hd : 2 ≤ d) (hA : Good A) (hAi : A.inDim = d) (hBi : B.inDim = d)
    (hB : ∀ J, B.grad [] = .ok J → J.cols = d) (x : List ℝ) (hx : x.length = d) :
    ∃ e, (sameInput d [A, B]).grad x = .error e := by
  have hs : slice x 0 (0 + A.inDim) = x := by
    rw [slice, List.drop_zero, List.take_of_length_le (by omega)]
  have hs2 : slice x (0 + A.inDim) (0 + A.inDim + B.inDim) = [] := by
    simp only [slice]
    apply List.drop_eq_nil_of_le
    simp only [List.length_take]
    omega
  obtain ⟨V, h1, h2⟩ := hA x (by omega)
  show ∃ e, layGrad _ d [A, B] x = .error e
  simp only [layGrad, layLoop, hs, h1, hs2]
  cases hset : setBlock (Option.getD none (zeros ℝ ([A, B].map GNode.outDim).sum d)) 0 (0 + A.outDim) 0 (0 + A.inDim) V with
  | error e => exact ⟨e, rfl⟩
  | ok J =>
    simp only
    cases hg : B.grad [] with
    | error e => exact ⟨e, rfl⟩
    | ok W =>
      have hc : J.cols = d := by
        unfold setBlock at hset
        split at hset
        · injection hset with hset
          rw [← hset]
          rfl
        · cases hset
      have hW := hB W hg
      simp only [Option.getD_some, setBlock]
      rw [if_neg]
      · exact ⟨_, rfl⟩
      · rw [hc, hW]
        simp only [fits, Bool.and_eq_true, Bool.or_eq_true, beq_iff_eq, not_and]
        intro _
        omega

example : ∃ e, (sameInput 2 [identity ℝ 2, identity ℝ 2]).grad [3, 4] = .error e :=
  same_input_error _ _ 2 (le_refl 2) (identity_good 2) rfl rfl (by
    intro J h
    rw [show (identity ℝ 2).grad [] = _ from setDiag_ok 2 2 2 (le_refl 2) (le_refl 2)] at h
    injection h with h
    rw [← h]) _ rfl

/-- **C152**: with one input the rows of the second node are zero, whatever it does. -/
theorem same_input_false (a b : ℝ) (ha : a ≠ 0) (x : ℝ) : ∃ J,
    (sameInput 1 [identity ℝ 1, sfa 1 1 (fun _ _ => a) (fun _ => b)]).grad [x] = .ok J ∧ J.e 1 0 = 0 ∧
    ¬ IsJac (sameInput 1 [identity ℝ 1, sfa 1 1 (fun _ _ => a) (fun _ => b)]).exec 1 2 [x] J := by
  refine ⟨⟨2, 1, fun k j => if 0 ≤ k ∧ k < 1 ∧ 0 ≤ j ∧ j < 1 then (if k = j ∧ k < 1 then 1 else 0) else 0⟩, ?_, ?_, ?_⟩
  · show layGrad 2 1 [identity ℝ 1, sfa 1 1 (fun _ _ => a) (fun _ => b)] [x] = _
    have h1 := setDiag_ok 1 1 1 (le_refl 1) (le_refl 1)
    simp only [layGrad, layLoop, identity, sfa, h1]
    simp [setBlock, fits, zeros, bidx]
    funext k j
    by_cases h : k = 0 ∧ j = 0
    · simp [h]
    · rw [if_neg h, if_neg h, if_neg (by omega)]
  · simp
  · intro h
    have h1 := h.deriv 1 (by decide)
    obtain ⟨K, h2, h3⟩ := sfa_good 1 1 (fun _ _ => a) (fun _ => b) [x] rfl
    have h2' : K = ⟨1, 1, fun _ _ => a⟩ := by
      have : (Except.ok (⟨1, 1, fun _ _ => a⟩ : Jac ℝ) : Except Err (Jac ℝ)) = .ok K := h2
      injection this with this
      exact this.symm
    subst h2'
    have h4 : HasFDerivAt (fun v : Fin 1 → ℝ => ((sfa 1 1 (fun _ _ => a) (fun _ => b)).exec (List.ofFn v)).getD 0 0)
        (∑ j : Fin 1, a • (ContinuousLinearMap.proj j : (Fin 1 → ℝ) →L[ℝ] ℝ)) (fun j => [x].getD j 0) :=
      h3.deriv 0 Nat.one_pos
    have h5 : (fun v : Fin 1 → ℝ => ((sameInput 1 [identity ℝ 1, sfa 1 1 (fun _ _ => a) (fun _ => b)]).exec
        (List.ofFn v)).getD 1 0) =
        fun v => ((sfa 1 1 (fun _ _ => a) (fun _ => b)).exec (List.ofFn v)).getD 0 0 := by
      funext v
      simp [sameInput, identity]
    rw [h5] at h1
    have h6 := congrArg (fun L : (Fin 1 → ℝ) →L[ℝ] ℝ => L fun _ => 1) (h1.unique h4)
    simp at h6
    exact ha h6.symm

/-- **C152**: a layer with a node without a gradient has none. -/
theorem layer_refuses (pre post : List (GNode ℝ)) (N : GNode ℝ) (hN : ∀ x, N.grad x = .error .notImplemented)
    (hpre : ∀ M ∈ pre, Good M) (x : List ℝ) (hx : x.length = (layer (pre ++ N :: post)).inDim) :
    (layer (pre ++ N :: post)).grad x = .error .notImplemented := by
  have key : ∀ (post pre : List (GNode ℝ)) (i0 o0 : Nat) (g : Option (Jac ℝ)) (I O : Nat), (∀ M ∈ pre, Good M) →
      x.length = I → (g.getD (zeros ℝ O I)).rows = O → (g.getD (zeros ℝ O I)).cols = I →
      i0 + ((pre ++ N :: post).map GNode.inDim).sum ≤ I → o0 + ((pre ++ N :: post).map GNode.outDim).sum ≤ O →
      layLoop O I x (pre ++ N :: post) i0 o0 g = .error .notImplemented := by
    intro post pre
    induction pre with
    | nil =>
      intro i0 o0 g I O _ _ _ _ _ _
      simp [layLoop, hN]
    | cons M pre ih =>
      intro i0 o0 g I O hg hxl hr hc hi ho
      simp only [List.cons_append, List.map_cons, List.sum_cons] at hi ho
      have hs := isJac_slice I i0 (i0 + M.inDim) (by omega) x
      rw [Nat.add_sub_cancel_left] at hs
      obtain ⟨V, hV1, hV2⟩ := hg M (List.mem_cons_self ..) _ (hs.len x hxl)
      have e1 : min (o0 + M.outDim) O = o0 + M.outDim := by omega
      have e2 : min (i0 + M.inDim) I = i0 + M.inDim := by omega
      simp only [List.cons_append, layLoop, hV1, setBlock, hr, hc, e1, e2, hV2.rows, hV2.cols, Nat.add_sub_cancel_left,
        fits, beq_self_eq_true, Bool.true_or, Bool.and_self, if_true]
      exact ih _ _ (some _) I O (fun K hK => hg K (List.mem_cons_of_mem _ hK)) hxl rfl rfl (by omega) (by omega)
  have hx : x.length = ((pre ++ N :: post).map GNode.inDim).sum := hx
  show layGrad _ _ _ x = _
  rw [layGrad, key post pre 0 0 none _ _ hpre hx rfl rfl (by omega) (by omega)]

example : (layer [identity ℝ 1, noGrad 1 1 id, identity ℝ 1]).grad [1, 2, 3] = .error .notImplemented :=
  layer_refuses [identity ℝ 1] [identity ℝ 1] (noGrad 1 1 id) (fun _ => rfl) (by
    intro M hM
    rw [List.mem_singleton] at hM
    subst hM
    exact identity_good 1) _ rfl

end Bi.Gradient
