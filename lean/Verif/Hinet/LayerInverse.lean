import Verif.Hinet.LayerProps

/-! # The inverse of a layer -/

namespace Mdp.Layer

open Py Mdp.Node Mdp.Flow

variable {σ α β : Type}

/-- A proper 2-d array: every row has `cols` entries. -/
def WF (x : Arr α) : Prop := x.ndim = 2 ∧ ∀ r ∈ x.data, r.length = x.cols

/-- The inverse of the node undoes its execute (whatever dtype its output is cast to). -/
def Undoes (nd : Nd σ α β) : Prop := ∀ x y t, WF x → (execute nd.K x nd.s).1 = .ok y →
  WF y ∧ ∃ z, (inverse nd.K { y with dtype := t } nd.s).1 = .ok z ∧ z.ndim = 2 ∧ z.cols = x.cols ∧ z.data = x.data

/-- What is assumed about an inner node for inverting: trained, invertible, pure hooks, and it can undo. -/
structure InvOK (nd : Nd σ α β) : Prop where
  inner : InnerOK nd
  stable : Stable nd.s
  pureInv : PureInv nd.K
  invertible : nd.K.invertible = true
  undoes : Undoes nd

theorem setDtypes_noop (t : Nat) (ns ns' : List (Nd σ α β)) (hd : ∀ nd ∈ ns, nd.s.dtype ≠ none)
    (h : setDtypes t ns = (.ok (), ns')) : ns' = ns := by
  induction ns generalizing ns' with
  | nil => cases h; rfl
  | cons nd r ih =>
    unfold setDtypes at h
    split at h
    · cases h
    · next s hs =>
      have h1 := (Prod.ext_iff.1 h).1
      have h2 := (Prod.ext_iff.1 h).2
      simp only at h1 h2
      have h3 := ih _ (fun n hn => hd n (by simp [hn])) (Prod.ext h1 rfl)
      have h3 : (setDtypes t r).snd = r := h3
      rw [← h2, h3]
      congr 1
      have hdn := hd nd (by simp)
      obtain ⟨K, s0⟩ := nd
      unfold setDtype at hs
      simp only at hs hdn
      split at hs
      · cases hs
      · next hc =>
        split at hs
        · cases hs
        · cases hs
          have : s0.dtype = some t := by
            by_contra hne
            exact hc ⟨hdn, hne⟩
          rw [← this]

theorem inverse_visible (K : Kind σ α β) (hp : PureInv K) (s t : St σ α β) (hs : Stable s)
    (hv : visible t = visible s) (y : Arr α) : (inverse K y t).1 = (inverse K y s).1 := by
  have ht := stable_visible hv.symm hs
  rw [inverse_stable K s hs.training hs.out (hp s.st), inverse_stable K t ht.training ht.out (hp t.st)]
  simp only [visible, Prod.mk.injEq] at hv
  obtain ⟨e1, e2, e3, e4, e5, e6, e7⟩ := hv
  rw [e2, e3, e7]
  split
  · rfl
  · split <;> rfl

theorem execute_visible (K : Kind σ α β) (hp : PureExec K) (s : St σ α β) (hs : Stable s) (x : Arr α) :
    visible (execute K x s).2 = visible s := by
  rw [execute_stable K s hs x (hp s.st)]
  split <;> rfl

theorem colBlock_wf (x : Arr α) (hx : WF x) (a w : Nat) (h : a + w ≤ x.cols) :
    WF (colBlock x a w) ∧ (colBlock x a w).cols = w := by
  have hc : (colBlock x a w).cols = w := by simp only [colBlock]; omega
  refine ⟨⟨hx.1, ?_⟩, hc⟩
  intro r hr
  rw [hc]
  simp only [colBlock, List.mem_map] at hr
  obtain ⟨r0, h0, rfl⟩ := hr
  have := hx.2 r0 h0
  simp; omega

/-- Cutting a block of columns out of an array that is a concatenation gives the part. -/
theorem colBlock_part (y v : Arr α) (P S : Nat → List α) (n b o : Nat) (hv : WF v) (hvc : v.cols = o)
    (hvn : v.nrows = n) (hy2 : y.ndim = 2) (hyn : y.nrows = n) (hyc : b + o ≤ y.cols) (hP : ∀ k, k < n → (P k).length = b)
    (hy : ∀ k, k < n → y.data[k]? = some (P k ++ ((v.data[k]?).getD [] ++ S k))) :
    colBlock y b o = { v with dtype := y.dtype } := by
  obtain ⟨vn, vc, vt, vd⟩ := v
  obtain ⟨yn, yc, yt, yd⟩ := y
  simp only [WF, Arr.nrows] at *
  have hdata : yd.map (fun r => (r.drop b).take o) = vd := by
    apply List.ext_getElem?
    intro k
    by_cases hk : k < n
    · have hk' : k < vd.length := by omega
      have hl : (vd[k]).length = o := by rw [← hvc]; exact hv.2 _ (List.getElem_mem hk')
      rw [List.getElem?_map, hy k hk]
      simp only [List.getElem?_eq_getElem hk', Option.map_some, Option.getD_some]
      rw [List.drop_left' (hP k hk), List.take_left' hl]
    · rw [List.getElem?_eq_none (by simp; omega), List.getElem?_eq_none (by omega)]
  simp only [colBlock, hdata]
  have hc : min (b + o) yc - min b yc = o := by omega
  rw [hc, hy2, hv.1, hvc]

theorem invAll_undoes (x y : Arr α) (t : Nat) (ns ns' : List (Nd σ α β)) (vs : List (Arr α)) (a b : Nat)
    (P : Nat → List α) (y0 : Option (Arr α)) (hr : Runs { x with dtype := t } a ns ns' vs)
    (hn : ∀ nd ∈ ns, InvOK nd) (hx : WF x) (m : Nat) (hm : inDimSum ns = some m) (ha : a + m ≤ x.cols)
    (o : Nat) (ho : outDimSum ns = some o) (hy2 : y.ndim = 2) (hyn : y.nrows = x.nrows) (hyc : b + o ≤ y.cols)
    (hP : ∀ k, k < x.nrows → (P k).length = b)
    (hy : ∀ k, k < x.nrows → y.data[k]? = some (P k ++ (vs.map fun v => (v.data[k]?).getD []).flatten))
    (hacc : Acc x.nrows a (fun k => ((x.data[k]?).getD []).take a) y0) (hne : y0 = none → ns ≠ []) :
    ∃ z, (invAll y y0 b ns').1 = .ok z ∧
      Acc x.nrows (a + m) (fun k => ((x.data[k]?).getD []).take (a + m)) (some z) := by
  induction ns generalizing a b P y0 ns' vs m o with
  | nil =>
    cases hr
    cases y0 with
    | none => exact absurd rfl (hne rfl)
    | some z =>
      simp only [inDimSum, Option.some.injEq] at hm
      subst hm
      exact ⟨z, rfl, by simpa using hacc⟩
  | cons nd r ih =>
    cases hr with
    | cons hi ho' he hr =>
      next w o1 s v r' vs =>
      have hok := hn nd (by simp)
      have hw : ∃ m', inDimSum r = some m' ∧ m = w + m' := by
        simp only [inDimSum, hi, Option.map_eq_some_iff] at hm
        obtain ⟨m', h1, h2⟩ := hm
        exact ⟨m', h1, h2.symm⟩
      obtain ⟨m', hm', rfl⟩ := hw
      have hw : ∃ m', outDimSum r = some m' ∧ o = o1 + m' := by
        simp only [outDimSum, ho', Option.map_eq_some_iff] at ho
        obtain ⟨m', h1, h2⟩ := ho
        exact ⟨m', h1, h2.symm⟩
      obtain ⟨o', ho2, rfl⟩ := hw
      have hblk := colBlock_wf { x with dtype := t } hx a w (by show a + w ≤ x.cols; omega)
      have hexec : (execute nd.K (colBlock { x with dtype := t } a w) nd.s).1 = .ok v := by rw [he]
      obtain ⟨hvwf, z, hz, hz2, hzc, hzd⟩ := hok.undoes _ _ y.dtype hblk.1 hexec
      obtain ⟨e1, e2, e3⟩ := hok.inner.honest _ _ _ _ hok.inner.reach he
      rw [colBlock_nrows] at e3
      have e3 : v.nrows = x.nrows := e3
      have hvis : visible s = visible nd.s := by
        have := execute_visible nd.K hok.inner.pure nd.s hok.stable (colBlock { x with dtype := t } a w)
        rw [he] at this; exact this
      have hv' := hvis
      simp only [visible, Prod.mk.injEq] at hv'
      obtain ⟨f1, f2, _⟩ := hv'
      have hvc : v.cols = o1 := by
        have : some v.cols = some o1 := by rw [← e2, f2, ho']
        exact Option.some.inj this
      have hcb : colBlock y b o1 = { v with dtype := y.dtype } :=
        colBlock_part y v P (fun k => (vs.map fun v => (v.data[k]?).getD []).flatten) x.nrows b o1 hvwf hvc e3
          hy2 hyn (by omega) hP (fun k hk => by simpa using hy k hk)
      have hinv : (inverse nd.K (colBlock y b o1) s).1 = .ok z := by
        rw [inverse_visible nd.K hok.pureInv nd.s s hok.stable hvis, hcb]; exact hz
      have hzn : z.nrows = x.nrows := by
        unfold Arr.nrows; rw [hzd]; simp [colBlock]
      obtain ⟨z', hst, hacc', _⟩ := store_exact x.nrows a w _ y0 z hacc hz2 hzn (hzc.trans hblk.2)
      have hfun : (fun (k : Nat) => ((x.data[k]?).getD []).take a ++ (z.data[k]?).getD []) =
          fun (k : Nat) => ((x.data[k]?).getD []).take (a + w) := by
        funext k
        rw [hzd]
        simp only [colBlock, List.getElem?_map]
        cases x.data[k]? with
        | none => simp
        | some row => simp [List.take_add]
      rw [hfun] at hacc'
      have hvs : ∀ k, k < x.nrows → (P k ++ (v.data[k]?).getD []).length = b + o1 := by
        intro k hk
        have hk' : k < v.data.length := by unfold Arr.nrows at e3 hk; omega
        have := hvwf.2 _ (List.getElem_mem hk')
        simp [hP k hk, List.getElem?_eq_getElem hk', this, hvc]
      obtain ⟨z2, g1, g2⟩ := ih r' vs (a + w) (b + o1) (fun k => P k ++ (v.data[k]?).getD []) (some z') hr
        (fun n hn' => hn n (by simp [hn'])) m' hm' (by omega) o' ho2 (by omega) hvs
        (fun k hk => by rw [hy k hk]; simp) hacc' (by simp)
      refine ⟨z2, ?_, ?_⟩
      · simp only [invAll, f1.trans hi, f2.trans ho']
        generalize inverse nd.K (colBlock y b o1) s = R at hinv
        obtain ⟨r1, s1⟩ := R
        simp only at hinv
        subst hinv
        simp only [hst]
        exact g1
      · rw [← Nat.add_assoc]; exact g2

theorem outDimSum_adv {a b : List (Nd σ α β)} (h : AdvL a b) {o : Nat} (ho : outDimSum a = some o) :
    outDimSum b = some o := by
  induction h generalizing o with
  | nil => exact ho
  | @cons m n r r' h1 _ ih =>
    unfold outDimSum at ho ⊢
    split at ho
    · next k hk =>
      rw [fwd_some h1.fwd hk]
      simp only [Option.map_eq_some_iff] at ho ⊢
      obtain ⟨c, h2, h3⟩ := ho
      exact ⟨c, ih h2, h3⟩
    · cases ho

theorem inDimSum_adv {a b : List (Nd σ α β)} (h : AdvL a b) {o : Nat} (ho : inDimSum a = some o) :
    inDimSum b = some o := by
  induction h generalizing o with
  | nil => exact ho
  | @cons m n r r' h1 _ ih =>
    unfold inDimSum at ho ⊢
    split at ho
    · next k hk =>
      have : n.s.inputDim = some k := by
        rcases h1.fwd.inp with h | h
        · rw [hk] at h; cases h
        · rw [h, hk]
      rw [this]
      simp only [Option.map_eq_some_iff] at ho ⊢
      obtain ⟨c, h2, h3⟩ := ho
      exact ⟨c, ih h2, h3⟩
    · cases ho

/-! ### Input dimension and inner nodes of a reachable layer -/

theorem layer_hookKeepsL (nodes : List (Nd σ α β)) {Q : List (Nd σ α β) → Prop}
    (hQ : ∀ a b, AdvL a b → Q a → Q b) : HookKeeps (layerKind nodes) Q where
  trainH _ ns x a h := hQ _ _ (withDtype_adv _ _ (trainAll_adv x a 0) ns) h
  stopH _ ns h := hQ _ _ (stopHook_adv ns) h
  execH ns x h := hQ _ _ (withDtype_adv _ _ (execAll_adv x none 0) ns) h
  invH ns y h := hQ _ _ (invAll_adv y none 0 ns) h

theorem layer_adv {nodes : List (Nd σ α β)} {s : St (List (Nd σ α β)) α β} (h : LayerReachable nodes s) :
    AdvL nodes s.st := by
  have hk := layer_hookKeepsL nodes (Q := fun ns => AdvL nodes ns) (fun a b h h' => h'.trans h)
  induction h with
  | init h => exact (layerInit_st nodes _ _ h).2
  | call c _ ih => exact hk.keeps_calls [c] _ ih
  | exec x _ ih =>
    unfold Layer.execute
    rw [M.bind_def]
    have h1 := preWith_adv (layerKind nodes) _ (layerPre_adv x) ‹_›
    split
    · next heq => rw [heq] at h1; exact hk.keeps_execute x _ (ih.trans h1)
    · next heq => rw [heq] at h1; exact ih.trans h1

theorem preWith_fwd (K : Kind (List (Nd σ α β)) α β) (loop) : M.Moves Fwd (preWith K loop) := by
  intro s
  unfold preWith
  split
  · exact fwd_pre.refl _
  · have hf : ∀ ns, Fwd s { s with st := ns } := fun ns => ⟨.inr rfl, .inr rfl, .inr rfl, Int.le_refl _, id⟩
    split
    · exact hf _
    · split
      · exact hf _
      · exact fwd_pre.trans (hf _) ((setOutputDim_soft K _ _).fwd)

theorem layerInit_dim (nodes : List (Nd σ α β)) (dtype : Option Nat) (L : Nd (List (Nd σ α β)) α β)
    (h : layerInit nodes dtype = .ok L) : ∃ n, inDimSum nodes = some n ∧ L.s.inputDim = some n := by
  unfold layerInit at h
  split at h
  · cases h
  · next t hc =>
    have hin : ∃ n, inDimSum nodes = some n := by
      unfold checkProps at hc
      split at hc
      · cases hc
      · next hany =>
        clear hc h
        simp only [List.any_eq_true, not_exists, not_and] at hany
        induction nodes with
        | nil => exact ⟨0, rfl⟩
        | cons nd r ih =>
          obtain ⟨m, hm⟩ := ih (fun n hn => hany n (by simp [hn]))
          have := hany nd (by simp)
          cases hd : nd.s.inputDim with
          | none => simp [hd] at this
          | some k => exact ⟨k + m, by simp [inDimSum, hd, hm]⟩
    obtain ⟨n, hn⟩ := hin
    refine ⟨n, hn, ?_⟩
    simp only at h
    split at h
    · cases h
    · next s hs =>
      split at h
      · cases h
      · cases h
        simp only
        unfold init at hs
        obtain ⟨_, s1, h1, hs⟩ := M.bind_eq_ok hs
        have h1' : s1.inputDim = some n := by
          rw [hn] at h1
          unfold setInputDim setInputDimRaw at h1
          simp only [layerKind] at h1
          cases h1
          rfl
        have hm : M.Moves Fwd (do setOutputDim (layerKind nodes) (outDimSum nodes); setDtype (layerKind nodes) t :
            NodeM (List (Nd σ α β)) α β Unit) :=
          .bind fwd_pre (soft_moves_fwd (setOutputDim_soft _ _)) fun _ => soft_moves_fwd (setDtype_soft _ _)
        have := hm s1
        rw [hs] at this
        rcases this.inp with h | h
        · rw [h1'] at h; cases h
        · rw [h, h1']

/-- The input dimension of a layer is the sum of the input dimensions of its nodes, throughout its life. -/
theorem layer_input_dim (nodes : List (Nd σ α β)) (s : St (List (Nd σ α β)) α β) (h : LayerReachable nodes s) :
    ∃ n, inDimSum s.st = some n ∧ s.inputDim = some n := by
  have hadv := layer_adv h
  have : ∃ n, inDimSum nodes = some n ∧ s.inputDim = some n := by
    clear hadv
    induction h with
    | init h => exact layerInit_dim nodes _ _ h
    | call c _ ih =>
      obtain ⟨n, h1, h2⟩ := ih
      refine ⟨n, h1, ?_⟩
      rcases (call_fwd (layerKind nodes) c _).inp with h | h
      · rw [h2] at h; cases h
      · rw [h, h2]
    | exec x _ ih =>
      obtain ⟨n, h1, h2⟩ := ih
      refine ⟨n, h1, ?_⟩
      have hm : M.Moves Fwd (Layer.execute (layerKind nodes) x) :=
        .bind fwd_pre (preWith_fwd _ _) fun _ => execute_fwd _ x
      rcases (hm _).inp with h | h
      · rw [h2] at h; cases h
      · rw [h, h2]
  obtain ⟨n, h1, h2⟩ := this
  exact ⟨n, inDimSum_adv hadv h1, h2⟩

/-- C21: for a trained layer all of whose inner nodes can undo their own execute, the inverse of the layer
undoes the execute of the layer. -/
theorem layer_inverse_undoes (nodes : List (Nd σ α β)) (s s' : St (List (Nd σ α β)) α β)
    (hr : LayerReachable nodes s) (hs : Stable s) (hout : outDimSum s.st = s.outputDim)
    (hn : ∀ nd ∈ s.st, InvOK nd) (x y : Arr α) (hx : WF x)
    (h : Layer.execute (layerKind nodes) x s = (.ok y, s')) :
    ∃ z, (inverse (layerKind nodes) y s').1 = .ok z ∧ z.ndim = 2 ∧ z.cols = x.cols ∧ z.data = x.data := by
  obtain ⟨n, hin, hin'⟩ := layer_input_dim nodes s hr
  have hadvK := layer_adv hr
  have hinvK : (layerKind nodes).invertible = true := by
    have : ∀ nd ∈ nodes, nd.K.invertible = true := by
      clear hin hin' h hout hr
      intro nd hnd
      have hn' := fun nd hnd => (hn nd hnd).invertible
      clear hn hs
      generalize s.st = l at hadvK hn'
      induction hadvK with
      | nil => cases hnd
      | cons h1 _ ih =>
        rcases List.mem_cons.1 hnd with rfl | hnd
        · rw [← h1.K]; exact hn' _ (by simp)
        · exact ih hnd (fun n hn => hn' n (by simp [hn]))
    simpa [layerKind] using this
  cases hso : s.outputDim with
  | none => exact absurd hso hs.out
  | some o =>
  rw [hso] at hout
  unfold Layer.execute at h
  obtain ⟨_, s1, h1, hx'⟩ := M.bind_eq_ok h
  clear h
  have : s1 = s := by
    unfold preWith at h1
    rw [hso] at h1
    cases h1; rfl
  subst this
  -- the base class checks do nothing on a trained layer
  obtain ⟨s2, h2, hres, hst⟩ := execute_ok_hook _ _ _ _ _ hx'
  have hpre : s2 = s1 ∧ x.ndim = 2 ∧ s1.inputDim = some x.cols ∧ 0 < x.nrows := by
    unfold preExecutionChecks at h2
    simp only [M.bind_def, M.get_def] at h2
    have hw : (M.when (s1.phase = 0 ∧ s1.started = false) (trainLoop (layerKind nodes) x) :
        NodeM (List (Nd σ α β)) α β Unit) s1 = (.ok (), s1) := by simp [M.when, hs.touched]
    rw [hw] at h2
    simp only [ifTrainingStopTraining, M.bind_def, M.get_def, hs.training] at h2
    rw [if_neg (by simp)] at h2
    simp only [M.pure_def, checkInput_stable _ s1 hs.inp hs.dt] at h2
    by_cases hc : x.ndim = 2 ∧ s1.inputDim = some x.cols ∧ 0 < x.nrows
    · simp only [if_pos hc] at h2
      rw [when_false hs.out] at h2
      cases h2
      exact ⟨rfl, hc⟩
    · simp only [if_neg hc] at h2
      cases h2
  obtain ⟨rfl, hx2, hxc, hx0⟩ := hpre
  have hn1 : n = x.cols := by rw [hxc] at hin'; exact (Option.some.inj hin').symm
  subst hn1
  simp only [layerKind, withDtype] at hres hst
  generalize hD : setDtypes (refcast s2.dtype x).dtype s2.st = R at hres hst
  obtain ⟨r, ns⟩ := R
  cases r with
  | error e => cases hres
  | ok u =>
  have := setDtypes_noop _ _ _ (fun nd hnd => (hn nd hnd).stable.dt) hD
  subst this
  simp only at hres hst
  generalize hE : execAll (refcast s2.dtype x) none 0 s2.st = E at hres hst
  obtain ⟨r, ns'⟩ := E
  simp only at hres hst
  subst hres
  have hg := fun nd hnd => (hn nd hnd).inner
  obtain ⟨vs, o', hruns, hsum, hacc, _⟩ := execAll_ok _ _ _ none y 0 0 (fun _ => [])
    (fun nd hnd => ⟨(hg nd hnd).honest, (hg nd hnd).reach⟩) ⟨fun _ => ⟨rfl, fun _ => rfl⟩, by simp⟩ hE
  obtain ⟨e1, e2, e3, e4⟩ := hacc.some y rfl
  have hadv := execAll_adv (refcast s2.dtype x) none 0 s2.st
  rw [hE] at hadv
  have hoo : o' = o := by
    have := outDimSum_adv hadv hout
    rw [hsum] at this
    exact Option.some.inj this
  subst hoo
  rw [Nat.zero_add] at e2
  have hne : s2.st ≠ [] := by
    intro h0
    rw [h0] at hE
    cases hE
  have hs'st : s'.training = false ∧ s'.outputDim = some o' := by
    have hf := execute_fwd (layerKind nodes) x s2
    rw [hx'] at hf
    exact ⟨hf.training hs.training, fwd_some hf hso⟩
  -- inverting: only the shape is checked
  have hinvAll := fun t => invAll_undoes x { y with dtype := t } _ s2.st ns' vs 0 0 (fun _ => []) none hruns hn hx
    x.cols hin (by omega) o' hout e1 e3 (by rw [Nat.zero_add]; exact Nat.le_of_eq e2.symm) (fun _ _ => rfl)
    (fun k hk => e4 k hk) ⟨fun _ => ⟨rfl, fun k => by simp⟩, by simp⟩ (fun _ => hne)
  obtain ⟨z, hz, hzacc⟩ := hinvAll (s'.dtype.getD 0)
  obtain ⟨z1, z2, z3, z4⟩ := hzacc.some z rfl
  refine ⟨z, ?_, z1, by omega, ?_⟩
  · unfold inverse preInversionChecks
    rw [if_neg (by simp [hinvK])]
    simp only [M.bind_def, ifTrainingStopTraining, M.get_def, hs'st.1]
    rw [if_neg (by simp)]
    simp only [M.pure_def]
    rw [when_false (by rw [hs'st.2]; simp)]
    simp only [M.ret_def, checkOutput]
    rw [if_neg (by simp [e1])]
    simp only [M.bind_def, M.get_def]
    rw [if_neg (by rw [hs'st.2, e2]; simp)]
    simp only [M.pure_def, logged]
    have hh : ((layerKind nodes).invHook s'.st (refcast s'.dtype y)).res = .ok z := by
      simp only [layerKind, hst]
      exact hz
    have hsets : ((layerKind nodes).invHook s'.st (refcast s'.dtype y)).sets = [] := rfl
    simp only [runHook, M.bind_def, M.modify_def, hsets, runSets, M.pure_def, M.lift_def, hh]
  · apply List.ext_getElem?
    intro k
    by_cases hk : k < x.nrows
    · rw [z4 k hk]
      have hk' : k < x.data.length := hk
      simp only [List.getElem?_eq_getElem hk', Option.getD_some, Nat.zero_add]
      rw [List.take_of_length_le (Nat.le_of_eq (hx.2 _ (List.getElem_mem hk')))]
    · have h1 : z.data.length ≤ k := by unfold Arr.nrows at z3 hk; omega
      have h2 : x.data.length ≤ k := by unfold Arr.nrows at hk; omega
      rw [List.getElem?_eq_none h1, List.getElem?_eq_none h2]

end Mdp.Layer
