import Verif.Online.LayerProps
import Verif.Hinet.LayerLemmas

/-! # Online layers: properties (C154, C155, C156) -/

namespace Mdp.Online

open Py Mdp.Node Mdp.Flow Mdp.Layer

variable {σ α β : Type}

/-! ### Training -/

theorem train_at (cut : Arr α → Nat → Nat → Arr α) (nodes : List (Mem σ α β)) (x : Arr α) (args : List β)
    (s : OSt (List (Mem σ α β)) α β) (dt : DType) (hT : nodes.any Mem.isTraining = true)
    (ho : s.node.training = true) (hi : ∀ m ∈ s.node.st, Dims.inp m ≠ none) (hx : x.ndim = 2) (hn : x.data ≠ [])
    (hin : s.node.inputDim = some x.cols)
    (hd : s.node.dtype = some dt ∨ s.node.dtype = none ∧ dt = x.dtype ∧ nodes.all (Mem.supported dt) = true)
    (l' : List (Mem σ α β)) :
    ((otrain (olayerKind cut nodes) x args s).1 = .ok () ∧ (otrain (olayerKind cut nodes) x args s).2.node.st = l') ↔
      l'.length = s.node.st.length ∧ ∀ (i : Nat) m m', s.node.st[i]? = some m → l'[i]? = some m' →
        TrainedAlone dt args
          ((blocks (s.ttype.getD .incremental) { x with dtype := dt }).map
            fun b => cut b (moffset s.node.st i) (width m)) m m' := by
  obtain ⟨s1, hc, h1⟩ := ocheckInput_accepts (K := olayerKind cut nodes) (t0 := .incremental) rfl hx hn hin hd
  obtain ⟨t, dt', ht, h2, h3⟩ := layer_train_core cut nodes x args s s1 hT ho hi hc
  rw [h1] at h2
  cases h2
  have : s.ttype.getD .incremental = t := by
    cases hs : s.ttype with
    | none => rw [hs] at ht; simpa using ht
    | some u => rw [hs] at ht; simpa using ht
  rw [this]
  exact h3 l'

/-- C154: training an `OnlineLayer` with a well-formed array: the call returns if and only if every inner node, given its
own columns of the data, accepts them, and then every inner node is what it would be had it been trained alone on these
columns, sample by sample or with the whole array according to the training type of the layer. -/
theorem online_layer_train (nodes : List (Mem σ α β)) (x : Arr α) (args : List β)
    (s : OSt (List (Mem σ α β)) α β) (dt : DType) (hT : nodes.any Mem.isTraining = true)
    (ho : s.node.training = true) (hi : ∀ m ∈ s.node.st, Dims.inp m ≠ none) (hx : x.ndim = 2) (hn : x.data ≠ [])
    (hin : s.node.inputDim = some x.cols)
    (hd : s.node.dtype = some dt ∨ s.node.dtype = none ∧ dt = x.dtype ∧ nodes.all (Mem.supported dt) = true)
    (l' : List (Mem σ α β)) :
    ((otrain (olayerKind layerCut nodes) x args s).1 = .ok () ∧
        (otrain (olayerKind layerCut nodes) x args s).2.node.st = l') ↔
      l'.length = s.node.st.length ∧ ∀ (i : Nat) m m', s.node.st[i]? = some m → l'[i]? = some m' →
        TrainedAlone dt args
          ((blocks (s.ttype.getD .incremental) { x with dtype := dt }).map
            fun b => colBlock b (moffset s.node.st i) (width m)) m m' :=
  train_at layerCut nodes x args s dt hT ho hi hx hn hin hd l'

/-- C154 for `SameInputOnlineLayer`: every inner node gets all the columns. -/
theorem same_input_online_layer_train (nodes : List (Mem σ α β)) (x : Arr α) (args : List β)
    (s : OSt (List (Mem σ α β)) α β) (dt : DType) (hT : nodes.any Mem.isTraining = true)
    (ho : s.node.training = true) (hi : ∀ m ∈ s.node.st, Dims.inp m ≠ none) (hx : x.ndim = 2) (hn : x.data ≠ [])
    (hin : s.node.inputDim = some x.cols)
    (hd : s.node.dtype = some dt ∨ s.node.dtype = none ∧ dt = x.dtype ∧ nodes.all (Mem.supported dt) = true)
    (l' : List (Mem σ α β)) :
    ((otrain (olayerKind sameCut nodes) x args s).1 = .ok () ∧
        (otrain (olayerKind sameCut nodes) x args s).2.node.st = l') ↔
      l'.length = s.node.st.length ∧ ∀ (i : Nat) m m', s.node.st[i]? = some m → l'[i]? = some m' →
        TrainedAlone dt args (blocks (s.ttype.getD .incremental) { x with dtype := dt }) m m' := by
  have h := train_at sameCut nodes x args s dt hT ho hi hx hn hin hd l'
  simpa only [sameCut, List.map_id'] using h

theorem trainEach_chunks (K : OKind σ α β) (cols : Nat) (dt : DType) (args : List β) (rows : List (List α))
    (s : OSt σ α β) :
    (Mem.online K s).trainEach args (rows.map fun r => ⟨2, cols, dt, [r]⟩) =
      ((trainChunks K cols dt args (rows.map fun r => [r]) s).1,
        .online K (trainChunks K cols dt args (rows.map fun r => [r]) s).2) := by
  induction rows generalizing s with
  | nil => rfl
  | cons r l ih =>
    simp only [List.map_cons, Mem.trainEach, trainChunks, Mem.train, M.bind_def]
    generalize otrain K ⟨2, cols, dt, [r]⟩ args s = z
    obtain ⟨q, s1⟩ := z
    cases q with
    | error e => rfl
    | ok u => exact ih s1

/-- C154, one node: in incremental training an inner online node (that initialises its parameters once) ends up exactly
as if it had been given its columns of the whole array in one call. -/
theorem online_layer_train_node (K : OKind σ α β) (P : σ → Prop) (hK : Settles K P)
    (hA : ∀ st x a, K.checkTrainArgs st x a = .ok ()) (x : Arr α) (args : List β) (a w : Nat)
    (hx : x.ndim = 2) (hn : x.data ≠ []) (s : OSt σ α β) (m' : Mem σ α β)
    (hty : Typed x.dtype (.online K s)) (ho : s.node.training = true) (hs : s.ttype.or K.types.head? ≠ some .batch) :
    TrainedAlone x.dtype args ((blocks .incremental x).map fun b => colBlock b a w) (.online K s) m' ↔
      (Mem.online K s).train (colBlock x a w) args = (.ok (), m') := by
  have h1 : ((blocks .incremental x).map fun b => colBlock b a w) =
      ((x.data.map fun r => (r.drop a).take w).map fun r => (⟨2, (colBlock x a w).cols, x.dtype, [r]⟩ : Arr α)) := by
    simp only [blocks, List.map_map]
    apply List.map_congr_left
    intro r _
    simp only [Function.comp, colBlock, hx, List.map_cons, List.map_nil]
  have h2 : colBlock x a w = ⟨2, (colBlock x a w).cols, x.dtype, x.data.map fun r => (r.drop a).take w⟩ := by
    simp only [colBlock, hx]
  have h3 := incremental_chunks hK hA (colBlock x a w).cols x.dtype args
    ((x.data.map fun r => (r.drop a).take w).map fun r => [r]) (by simpa using hn)
    (by intro c hc; obtain ⟨_, _, rfl⟩ := List.mem_map.1 hc; simp) s hs
  have h4 : ((x.data.map fun r => (r.drop a).take w).map fun r => [r]).flatten =
      x.data.map fun r => (r.drop a).take w := by
    generalize (x.data.map fun r => (r.drop a).take w) = l
    induction l with
    | nil => rfl
    | cons _ _ ih => simp [ih]
  rw [h4, ← h2] at h3
  have h5 : (Mem.online K s).trainEach args ((blocks .incremental x).map fun b => colBlock b a w) =
      (Mem.online K s).train (colBlock x a w) args := by
    rw [h1, trainEach_chunks, h3]; rfl
  unfold TrainedAlone
  constructor
  · rintro ⟨m1, g1, g2, _⟩
    rw [setDtype_typed hty] at g1
    cases g1
    rw [← h5]; exact g2 ho
  · intro h
    refine ⟨.online K s, setDtype_typed hty, fun _ => by rw [h5]; exact h, fun h' => ?_⟩
    have : s.node.training = false := h'
    rw [ho] at this; cases this

/-! ### The end of training -/

/-- A node after `stop_training`, if it was in training. -/
def Stopped (m m' : Mem σ α β) : Prop :=
  (m.isTraining = true → m.stop = (.ok (), m')) ∧ (m.isTraining = false → m' = m)

theorem mstopAll_ok (l l' : List (Mem σ α β)) :
    mstopAll l = (.ok (), l') ↔ List.Forall₂ Stopped l l' := by
  induction l generalizing l' with
  | nil => cases l' <;> simp [mstopAll]
  | cons m r ih =>
    rw [mstopAll]
    cases l' with
    | nil =>
      simp only [List.forall₂_cons_left_iff, reduceCtorEq, false_and, and_false, exists_false, iff_false]
      split <;> simp
    | cons m' r' =>
      rw [List.forall₂_cons, ← ih]
      have h1 : Stopped m m' ↔ (if m.isTraining = true then m.stop else (.ok (), m)) = (.ok (), m') := by
        unfold Stopped
        cases hm : m.isTraining with
        | true => simp
        | false =>
          simp only [Bool.false_eq_true, false_implies, true_implies, true_and, if_false, Prod.mk.injEq]
          exact eq_comm
      rw [h1]
      generalize (if m.isTraining = true then m.stop else (.ok (), m)) = z
      obtain ⟨q, m1⟩ := z
      cases q with
      | error e => simp
      | ok u =>
        simp only
        generalize mstopAll r = z2
        obtain ⟨q2, r1⟩ := z2
        simp only [Prod.mk.injEq, List.cons.injEq, true_and]
        constructor
        · rintro ⟨rfl, rfl, rfl⟩; exact ⟨rfl, rfl, rfl⟩
        · rintro ⟨rfl, rfl, rfl⟩; exact ⟨rfl, rfl, rfl⟩

/-- C154: when `stop_training` of the layer returns, training of every inner node that was still open has been stopped,
and the layer is closed. -/
theorem online_layer_stop (cut : Arr α → Nat → Nat → Arr α) (nodes : List (Mem σ α β))
    (s s' : OSt (List (Mem σ α β)) α β) (h : ostop (olayerKind cut nodes) s = (.ok (), s')) :
    List.Forall₂ Stopped s.node.st s'.node.st ∧ s'.node.training = false ∧ s'.node.phase = 1 := by
  unfold ostop at h
  rw [M.bind_ok (M.get_def _)] at h
  split at h
  · cases h
  · split at h
    · cases h
    · obtain ⟨_, s1, h1, h⟩ := M.bind_eq_ok h
      rw [M.bind_ok (M.modify_def _ _), M.modify_def] at h
      have h2 := (Prod.mk.inj h).2
      have h3 : List.Forall₂ Stopped s.node.st s1.node.st := by
        rw [show List.range (olayerKind cut nodes).nPhases = [0] from rfl, runStops, M.bind_ok (M.get_def _)] at h1
        obtain ⟨_, s2, h4, h5⟩ := M.bind_eq_ok h1
        rw [runStops] at h5
        have h5 : s2 = s1 := (Prod.mk.inj h5).2
        subst h5
        unfold olog at h4
        obtain ⟨h6, h7⟩ := Prod.mk.inj h4
        have h8 := runHook_st (olayerKind cut nodes).toKind ((olayerKind cut nodes).stopHook 0 s.node.st) s.node
        have h9 : s2.node.st = ((olayerKind cut nodes).stopHook 0 s.node.st).st := by
          rw [← h7]; exact h8
        rw [h9]
        have h10 : (runHook (olayerKind cut nodes).toKind ((olayerKind cut nodes).stopHook 0 s.node.st) s.node).1 =
            .ok () := h6
        have h11 : ((olayerKind cut nodes).stopHook 0 s.node.st).res = .ok () := by
          unfold runHook at h10
          simp only [M.bind_def, M.modify_def, M.lift_def] at h10
          split at h10
          · exact h10
          · cases h10
        rw [show (olayerKind cut nodes).stopHook 0 s.node.st = mstopHook s.node.st from rfl] at h11 ⊢
        unfold mstopHook at h11 ⊢
        generalize hz : mstopAll s.node.st = z at h11 ⊢
        obtain ⟨q, l⟩ := z
        cases q with
        | error e => cases h11
        | ok u => exact (mstopAll_ok _ _).1 hz
      have h4 : remaining (olayerKind cut nodes).toKind
          { s1.node with phase := (olayerKind cut nodes).nPhases, started := false } = 0 := by
        simp [remaining, olayerKind]
      rw [if_pos h4] at h2
      subst h2
      exact ⟨h3, rfl, rfl⟩

/-! ### Execution -/

/-- `execute` of the node, whenever it returns, returns one row per sample and the declared number of columns. -/
def HonestMem (m : Mem σ α β) : Prop := ∀ z v m' o, Dims.out m = some o → m.execute z = (.ok v, m') →
  v.ndim = 2 ∧ v.nrows = z.nrows ∧ v.cols = o

/-- The results of the inner nodes, each from its own columns. -/
inductive MRuns (cut : Arr α → Nat → Nat → Arr α) (x : Arr α) :
    Nat → List (Mem σ α β) → List (Mem σ α β) → List (Arr α) → Prop
  | nil (a) : MRuns cut x a [] [] []
  | cons {a w o m m' v r r' vs} (hi : Dims.inp m = some w) (ho : Dims.out m = some o)
      (he : m.execute (cut x a w) = (.ok v, m')) (hr : MRuns cut x (a + w) r r' vs) :
      MRuns cut x a (m :: r) (m' :: r') (v :: vs)

theorem mexecAll_ok (cut : Arr α → Nat → Nat → Arr α) (x : Arr α) (hcut : ∀ a w, (cut x a w).nrows = x.nrows)
    (ns ns' : List (Mem σ α β)) (y0 : Option (Arr α)) (y : Arr α) (a c : Nat) (pre : Nat → List α)
    (hh : ∀ m ∈ ns, HonestMem m) (ha : Acc x.nrows c pre y0) (h : mexecAll cut x y0 a ns = (.ok y, ns')) :
    ∃ vs c', MRuns cut x a ns ns' vs ∧ c' = c + (ns.map fun m => (Dims.out m).getD 0).sum ∧
      Acc x.nrows c' (fun k => pre k ++ (vs.map fun v => (v.data[k]?).getD []).flatten) (some y) := by
  induction ns generalizing ns' y0 a c pre with
  | nil =>
    cases y0 with
    | none => simp [mexecAll] at h
    | some z =>
      simp only [mexecAll, Prod.mk.injEq, Except.ok.injEq] at h
      obtain ⟨rfl, rfl⟩ := h
      exact ⟨[], c, .nil a, by simp, by simpa using ha⟩
  | cons m r ih =>
    unfold mexecAll at h
    split at h
    · next o w ho hi =>
      split at h
      · cases h
      · next v m1 he =>
        obtain ⟨e1, e2, e3⟩ := hh m (by simp) _ _ _ _ ho he
        rw [hcut] at e2
        obtain ⟨z, hz, hacc, _⟩ := store_exact x.nrows c o pre y0 v ha e1 e2 e3
        rw [hz] at h
        simp only at h
        generalize hq : mexecAll cut x (some z) (a + w) r = q at h
        obtain ⟨res, r1⟩ := q
        simp only [Prod.mk.injEq] at h
        obtain ⟨rfl, rfl⟩ := h
        obtain ⟨vs, c', g1, g2, g3⟩ := ih r1 (some z) (a + w) (c + o) _ (fun n hn => hh n (by simp [hn])) hacc hq
        refine ⟨v :: vs, c', .cons hi ho he g1, ?_, ?_⟩
        · rw [g2]; simp [ho]; omega
        · simpa [List.append_assoc] using g3
    · cases h

theorem mruns_get {cut : Arr α → Nat → Nat → Arr α} {x : Arr α} {a : Nat} {ns ns' : List (Mem σ α β)}
    {vs : List (Arr α)} (h : MRuns cut x a ns ns' vs) :
    vs.length = ns.length ∧ ns'.length = ns.length ∧ ∀ (i : Nat) m m' v, ns[i]? = some m → ns'[i]? = some m' → vs[i]? = some v →
      m.execute (cut x (a + moffset ns i) (width m)) = (.ok v, m') := by
  induction h with
  | nil a => simp
  | @cons a w o m m' v r r' vs hi ho he hr ih =>
    obtain ⟨h1, h2, h3⟩ := ih
    refine ⟨by simp [h1], by simp [h2], fun i n n' u g1 g2 g3 => ?_⟩
    have hw : width m = w := by simp [width, hi]
    cases i with
    | zero =>
      simp only [List.getElem?_cons_zero, Option.some.injEq] at g1 g2 g3
      subst g1 g2 g3
      simpa [moffset, hw] using he
    | succ i =>
      simp only [List.getElem?_cons_succ] at g1 g2 g3
      have e : a + moffset (m :: r) (i + 1) = a + w + moffset r i := by simp [moffset, hw, Nat.add_assoc]
      rw [e]
      exact h3 i n n' u g1 g2 g3

theorem execute_started (cut : Arr α → Nat → Nat → Arr α) (nodes : List (Mem σ α β)) (x y : Arr α)
    (s s' : OSt (List (Mem σ α β)) α β) (o dt : Nat) (hst : ¬ (s.node.phase = 0 ∧ s.node.started = false))
    (ho : s.node.outputDim = some o) (hd : s.node.dtype = some dt)
    (h : olayerExecute cut (olayerKind cut nodes) x s = (.ok y, s')) :
    ∃ l1, msetDtypes dt s.node.st = (.ok (), l1) ∧
      mexecAll cut { x with dtype := dt } none 0 l1 = (.ok y, s'.node.st) := by
  unfold olayerExecute at h
  have h0 : olayerPre cut (olayerKind cut nodes) x s = (.ok (), s) := by unfold olayerPre; rw [ho]
  rw [M.bind_ok h0] at h
  unfold oexecute at h
  obtain ⟨_, s1, h1, h⟩ := M.bind_eq_ok h
  rw [M.bind_ok (M.get_def _)] at h
  have h2 : s1.node.st = s.node.st ∧ s1.node.dtype = some dt := by
    unfold opreExec at h1
    rw [M.bind_ok (M.get_def _)] at h1
    obtain ⟨_, s2, g1, h1⟩ := M.bind_eq_ok h1
    unfold M.when at g1
    rw [if_neg hst] at g1
    have g1 : s = s2 := (Prod.mk.inj g1).2
    subst g1
    obtain ⟨_, s2, g2, h1⟩ := M.bind_eq_ok h1
    have e1 := ocheckInput_st (olayerKind cut nodes) x s
    have e2 := ocheckInput_softO (olayerKind cut nodes) x s
    rw [g2] at e1 e2
    rw [M.bind_ok (M.get_def _)] at h1
    obtain ⟨_, s3, g3, h1⟩ := M.bind_eq_ok h1
    have g3 : s2 = s3 := (Prod.mk.inj g3).2
    subst g3
    rw [M.bind_ok (M.get_def _)] at h1
    have e3 : s2.node.dtype = some dt := by
      rcases e2.2 with e | e
      · rw [hd] at e; cases e
      · exact e.trans hd
    unfold M.when at h1
    split at h1
    · have e4 : ∀ n, M.Moves (fun a b : St (List (Mem σ α β)) α β => b.st = a.st ∧ b.dtype = a.dtype)
          (setOutputDim (olayerKind cut nodes).toKind n) := by
        intro n s; unfold setOutputDim setOutputDimRaw; repeat' split
        all_goals exact ⟨rfl, rfl⟩
      have := e4 s2.node.inputDim s2.node
      have h1 : s1.node = (setOutputDim (olayerKind cut nodes).toKind s2.node.inputDim s2.node).2 := by
        rw [← (Prod.mk.inj h1).2]
      rw [h1, this.1, this.2]
      exact ⟨e1, e3⟩
    · have h1 : s2 = s1 := (Prod.mk.inj h1).2
      subst h1
      exact ⟨e1, e3⟩
  unfold olog at h
  obtain ⟨h3, h4⟩ := Prod.mk.inj h
  rw [h2.1, h2.2] at h3 h4
  have h5 : (runHook (olayerKind cut nodes).toKind
      (mwithDtype dt (mexecAll cut { x with dtype := dt } none 0) s.node.st) s1.node).1 = .ok y := h3
  have h6 := runHook_st (olayerKind cut nodes).toKind
    (mwithDtype dt (mexecAll cut { x with dtype := dt } none 0) s.node.st) s1.node
  have h7 : s'.node.st = (mwithDtype dt (mexecAll cut { x with dtype := dt } none 0) s.node.st).st := by
    rw [← h4]; exact h6
  rw [h7]
  unfold mwithDtype at h5 ⊢
  generalize msetDtypes dt s.node.st = z at h5 ⊢
  obtain ⟨q, l1⟩ := z
  cases q with
  | error e => cases h5
  | ok u =>
    exact ⟨l1, rfl, Prod.ext h5 rfl⟩

/-- C155: `execute` of an `OnlineLayer` that has been trained and knows its output dimension and dtype: the inner nodes
are executed on their own columns, and every row of the result is the concatenation of their rows. -/
theorem online_layer_execute_partial (nodes : List (Mem σ α β)) (x y : Arr α)
    (s s' : OSt (List (Mem σ α β)) α β) (o dt : Nat) (hst : ¬ (s.node.phase = 0 ∧ s.node.started = false))
    (ho : s.node.outputDim = some o) (hd : s.node.dtype = some dt)
    (hty : ∀ m ∈ s.node.st, Typed dt m) (hh : ∀ m ∈ s.node.st, HonestMem m)
    (h : olayerExecute layerCut (olayerKind layerCut nodes) x s = (.ok y, s')) :
    ∃ vs : List (Arr α), vs.length = s.node.st.length ∧ s'.node.st.length = s.node.st.length ∧
      (∀ (i : Nat) m m' v, s.node.st[i]? = some m → s'.node.st[i]? = some m' → vs[i]? = some v →
        m.execute (colBlock { x with dtype := dt } (moffset s.node.st i) (width m)) = (.ok v, m')) ∧
      y.nrows = x.nrows ∧ y.cols = (s.node.st.map fun m => (Dims.out m).getD 0).sum ∧
      ∀ k, k < x.nrows → y.data[k]? = some (vs.map fun v => (v.data[k]?).getD []).flatten := by
  obtain ⟨l1, h1, h2⟩ := execute_started layerCut nodes x y s s' o dt hst ho hd h
  have h3 : ∀ l : List (Mem σ α β), (∀ m ∈ l, Typed dt m) → msetDtypes dt l = (.ok (), l) := by
    intro l hl
    induction l with
    | nil => rfl
    | cons m r ih =>
      rw [msetDtypes, setDtype_typed (hl m (by simp))]
      simp only [ih fun n hn => hl n (by simp [hn])]
  rw [h3 _ hty] at h1
  cases h1
  obtain ⟨vs, c', g1, g2, g3⟩ := mexecAll_ok layerCut { x with dtype := dt }
    (fun a w => by simp [layerCut, colBlock, Arr.nrows]) _ _ none y 0 0 (fun _ => []) hh ⟨by simp, by simp⟩ h2
  obtain ⟨k1, k2, k3⟩ := mruns_get g1
  obtain ⟨_, q1, q2, q3⟩ := g3.some y rfl
  refine ⟨vs, k1, k2, fun i m m' v a b c => ?_, q2, by rw [q1, g2]; simp, fun k hk => ?_⟩
  · have := k3 i m m' v a b c
    rw [Nat.zero_add] at this
    exact this
  · have := q3 k hk
    simpa using this

/-! ### CloneOnlineLayer -/

/-- The parts of an array that the clones of a node of input dimension `w` get, from the left. -/
def parts (n w : Nat) (b : Arr α) : List (Arr α) := (List.range n).map fun k => colBlock b (k * w) w

theorem stepEach_append {args : List β} (l l' : List (Arr α)) (m m' : Mem σ α β) :
    stepEach args (l ++ l') m = (.ok (), m') ↔
      ∃ m1, stepEach args l m = (.ok (), m1) ∧ stepEach args l' m1 = (.ok (), m') := by
  induction l generalizing m with
  | nil =>
    have : stepEach args [] m = (.ok (), m) := by unfold stepEach Mem.trainEach; split <;> rfl
    simp [this]
  | cons b r ih =>
    rw [List.cons_append, stepEach_cons]
    constructor
    · rintro ⟨m1, h1, h2⟩
      obtain ⟨m2, h3, h4⟩ := (ih m1).1 h2
      exact ⟨m2, (stepEach_cons b r m m2).2 ⟨m1, h1, h3⟩, h4⟩
    · rintro ⟨m2, h1, h2⟩
      obtain ⟨m1, h3, h4⟩ := (stepEach_cons b r m m2).1 h1
      exact ⟨m1, h3, (ih m1).2 ⟨m2, h4, h2⟩⟩

theorem mcloneTrain_ok (x : Arr α) (args : List β) (w : Nat) (n a : Nat) (m m' : Mem σ α β) (hm : Dims.inp m = some w) :
    mcloneTrain x args n a m = (.ok (), m') ↔
      stepEach args ((List.range n).map fun k => colBlock x (a + k * w) w) m = (.ok (), m') := by
  induction n generalizing a m with
  | zero =>
    have : stepEach args [] m = (.ok (), m) := by unfold stepEach Mem.trainEach; split <;> rfl
    simp [mcloneTrain, this]
  | succ n ih =>
    rw [mcloneTrain, hm, List.range_succ_eq_map, List.map_cons, stepEach_cons]
    simp only [Nat.zero_mul, Nat.add_zero]
    have hk : ∀ m1, m.step (colBlock x a w) args = (.ok (), m1) → Dims.inp m1 = some w := by
      intro m1 h
      have h2 : stepEach args [colBlock x a w] m = (.ok (), m1) := by
        rw [stepEach_cons]
        exact ⟨m1, h, by unfold stepEach Mem.trainEach; split <;> rfl⟩
      rw [(stepEach_keeps _ _ _ h2).2.1 (by rw [hm]; simp), hm]
    have he : (List.map (fun k => colBlock x (a + k * w) w) (List.map Nat.succ (List.range n))) =
        (List.range n).map fun k => colBlock x (a + w + k * w) w := by
      rw [List.map_map]
      apply List.map_congr_left
      intro k _
      simp only [Function.comp, Nat.succ_mul]
      congr 1
      omega
    rw [he]
    generalize hz : m.step (colBlock x a w) args = z at hk
    obtain ⟨q, m1⟩ := z
    cases q with
    | error e => simp
    | ok u =>
      simp only
      rw [ih (a + w) m1 (hk m1 rfl)]
      constructor
      · intro h; exact ⟨m1, rfl, h⟩
      · rintro ⟨m2, h1, h2⟩; cases h1; exact h2

/-- What the training hook of a clone layer does. -/
def cloneH (n : Nat) (m : Mem σ α β) (x : Arr α) (args : List β) : Except Err Unit × Mem σ α β :=
  match m.setDtype x.dtype with
  | (.error e, m') => (.error e, m')
  | (.ok (), m') => mcloneTrain x args n 0 m'

theorem oclone_single (m0 : Mem σ α β) (n : Nat) : Single (ocloneKind m0 n) (cloneH n) where
  phases := rfl
  hook := fun st x a => by
    simp only [ocloneKind, mcloneDtype, cloneH]
    rcases Mem.setDtype x.dtype st with ⟨q, l⟩
    cases q <;> rfl
  pass := rfl
  check := fun _ _ => rfl
  args := fun _ _ _ => rfl

theorem cloneH_ok (n : Nat) (x : Arr α) (args : List β) (w : Nat) (m m' : Mem σ α β) (hm : Dims.inp m = some w) :
    cloneH n m x args = (.ok (), m') ↔
      ∃ m1, m.setDtype x.dtype = (.ok (), m1) ∧ stepEach args (parts n w x) m1 = (.ok (), m') := by
  unfold cloneH parts
  generalize hz : m.setDtype x.dtype = z
  obtain ⟨q, m1⟩ := z
  cases q with
  | error e => simp
  | ok u =>
    have h1 : Dims.inp m1 = some w := (setDtype_ok hz).2.1.trans hm
    simp only [mcloneTrain_ok x args w n 0 m1 m' h1, Nat.zero_add]
    constructor
    · intro h; exact ⟨m1, rfl, h⟩
    · rintro ⟨m2, h1, h2⟩; cases h1; exact h2

theorem feed_clone (n : Nat) (args : List β) (t : DType) (w : Nat) (bs : List (Arr α)) (hb : bs ≠ [])
    (ht : ∀ b ∈ bs, b.dtype = t) (m m' : Mem σ α β) (hm : Dims.inp m = some w) :
    feedBlocks (cloneH n) args bs m = (.ok (), m') ↔
      ∃ m1, m.setDtype t = (.ok (), m1) ∧ stepEach args (bs.flatMap (parts n w)) m1 = (.ok (), m') := by
  induction bs generalizing m with
  | nil => exact absurd rfl hb
  | cons b r ih =>
    have hbt : b.dtype = t := ht b (by simp)
    have e1 : feedBlocks (cloneH n) args (b :: r) m = (.ok (), m') ↔
        ∃ m1, cloneH n m b args = (.ok (), m1) ∧ feedBlocks (cloneH n) args r m1 = (.ok (), m') := by
      simp only [feedBlocks]
      cases cloneH n m b args with | mk q l1 => ?_
      cases q with
      | error e => simp
      | ok u => simp
    rw [e1]
    simp only [cloneH_ok n b args w m _ hm, hbt]
    rw [List.flatMap_cons]
    simp only [stepEach_append]
    have hk : ∀ m1 m2, m.setDtype t = (.ok (), m1) → stepEach args (parts n w b) m1 = (.ok (), m2) →
        Dims.inp m2 = some w ∧ Typed t m2 := by
      intro m1 m2 h1 h2
      have h3 := setDtype_ok h1
      have h4 := stepEach_keeps _ _ _ h2
      refine ⟨?_, h4.1 t h3.1⟩
      rw [h4.2.1 (by rw [h3.2.1, hm]; simp), h3.2.1, hm]
    cases r with
    | nil =>
      constructor
      · rintro ⟨m2, ⟨m1, h1, h2⟩, h3⟩
        refine ⟨m1, h1, m2, h2, ?_⟩
        have : m2 = m' := (Prod.mk.inj h3).2
        subst this
        unfold stepEach; split <;> rfl
      · rintro ⟨m1, h1, m2, h2, h3⟩
        refine ⟨m2, ⟨m1, h1, h2⟩, ?_⟩
        have : m2 = m' := by
          unfold stepEach at h3
          split at h3 <;> exact (Prod.mk.inj h3).2
        rw [this]; rfl
    | cons b' r' =>
      constructor
      · rintro ⟨m2, ⟨m1, h1, h2⟩, h3⟩
        obtain ⟨k1, k2⟩ := hk m1 m2 h1 h2
        obtain ⟨m3, h4, h5⟩ := (ih (by simp) (fun c hc => ht c (by simp [hc])) m2 k1).1 h3
        rw [setDtype_typed k2] at h4
        cases h4
        exact ⟨m1, h1, _, h2, h5⟩
      · rintro ⟨m1, h1, m2, h2, h3⟩
        obtain ⟨k1, k2⟩ := hk m1 m2 h1 h2
        exact ⟨m2, ⟨m1, h1, h2⟩,
          (ih (by simp) (fun c hc => ht c (by simp [hc])) m2 k1).2 ⟨m2, setDtype_typed k2, h3⟩⟩

/-- C156: training a `CloneOnlineLayer` with `n` clones of a node of input dimension `w` trains that node with the `n`
parts of the data from left to right: of every sample in turn in incremental training, of the whole array in batch
training. The call returns if and only if the node accepts all the parts. -/
theorem clone_online_layer_train (m0 : Mem σ α β) (n w : Nat) (x : Arr α) (args : List β)
    (s : OSt (Mem σ α β) α β) (dt : DType) (hT : m0.isTraining = true)
    (ho : s.node.training = true) (hi : Dims.inp s.node.st = some w) (hx : x.ndim = 2) (hn : x.data ≠ [])
    (hin : s.node.inputDim = some x.cols)
    (hd : s.node.dtype = some dt ∨ s.node.dtype = none ∧ dt = x.dtype ∧ m0.supported dt = true)
    (m' : Mem σ α β) :
    ((otrain (ocloneKind m0 n) x args s).1 = .ok () ∧ (otrain (ocloneKind m0 n) x args s).2.node.st = m') ↔
      TrainedAlone dt args
        ((blocks (s.ttype.getD .incremental) { x with dtype := dt }).flatMap fun b =>
          (List.range n).map fun k => colBlock b (k * w) w) s.node.st m' := by
  obtain ⟨s1, hc, h1⟩ := ocheckInput_accepts (K := ocloneKind m0 n) (t0 := .incremental) rfl hx hn hin hd
  obtain ⟨t, _, ht, h2, h3⟩ := otrain_single (oclone_single m0 n) x args s s1 hT ho hc
  have : s.ttype.getD .incremental = t := by
    cases hs : s.ttype with
    | none => rw [hs] at ht; simpa [ocloneKind] using ht
    | some u => rw [hs] at ht; simpa using ht
  rw [this]
  have hr : refcast s1.node.dtype x = { x with dtype := dt } := by rw [h1]; rfl
  rw [hr] at h2 h3
  have hne : blocks t { x with dtype := dt } ≠ [] := by
    cases t with
    | batch => simp [blocks]
    | incremental => simpa [blocks] using hn
  have hf := feed_clone n args dt w (blocks t { x with dtype := dt }) hne
    (fun b hb => blocks_dtype t _ b hb) s.node.st m' hi
  have e : (feedBlocks (cloneH n) args (blocks t { x with dtype := dt }) s.node.st).1 = .ok () ∧
      (feedBlocks (cloneH n) args (blocks t { x with dtype := dt }) s.node.st).2 = m' ↔
      feedBlocks (cloneH n) args (blocks t { x with dtype := dt }) s.node.st = (.ok (), m') := by
    constructor
    · rintro ⟨a, b⟩; exact Prod.ext a b
    · intro h; rw [h]; exact ⟨rfl, rfl⟩
  rw [h2, h3, e, hf]
  unfold TrainedAlone
  constructor
  · rintro ⟨m1, g1, g2⟩
    have hq := (setDtype_ok g1).2.2
    refine ⟨m1, g1, fun h => ?_, fun h => ?_⟩
    · unfold stepEach at g2
      rw [if_pos (hq.trans h)] at g2; exact g2
    · unfold stepEach at g2
      rw [if_neg (by rw [hq, h]; decide)] at g2; exact (Prod.mk.inj g2).2.symm
  · rintro ⟨m1, g1, g2, g3⟩
    have hq := (setDtype_ok g1).2.2
    refine ⟨m1, g1, ?_⟩
    unfold stepEach
    split
    · next h => exact g2 (hq.symm.trans h)
    · next h => rw [g3 (by rw [← hq]; simpa using h)]

/-! ### Construction and training type -/

/-- C154: the training type of a new layer is batch if one of the nodes is set to batch training, and open otherwise; the
layer is trainable if one of its nodes is in training, and only online nodes may be. -/
theorem online_layer_init (cut : Arr α → Nat → Nat → Arr α) (inp : List (Mem σ α β) → Except Err (Option Nat))
    (ns : List (Mem σ α β)) (dtype : Option DType) (s : OSt (List (Mem σ α β)) α β)
    (h : olayerInit cut inp ns dtype = .ok s) :
    (s.ttype = some .batch ↔ ∃ m ∈ ns, m.isBatch = true) ∧ (s.ttype ≠ some .batch → s.ttype = none) ∧
    (∀ m ∈ ns, m.isOnline = true ∨ m.isTraining = false) ∧ (∀ m ∈ ns, Dims.inp m ≠ none) := by
  unfold olayerInit at h
  split at h
  · cases h
  · next t ht =>
    split at h
    · cases h
    · next d hd =>
      simp only at h
      split at h
      · cases h
      · split at h
        · cases h
        · split at h
          · next hc =>
            cases h
            refine ⟨?_, ?_, ?_, ?_⟩
            · simp only
              rw [← List.any_eq_true]
              split <;> simp_all
            · simp only
              split <;> simp_all
            · intro m hm
              unfold mcompatible at hc
              have := List.all_eq_true.1 hc m hm
              simpa using this
            · intro m hm hn
              unfold mcheckProps at ht
              rw [if_pos] at ht
              · cases ht
              · exact List.any_eq_true.2 ⟨m, hm, by rw [hn]; rfl⟩
          · cases h

/-- C154: once the training type of a layer is set it can not be changed; asking for the same type again changes nothing. -/
theorem online_layer_type_fixed (cut : Arr α → Nat → Nat → Arr α) (nodes : List (Mem σ α β)) (t u : TType)
    (s : OSt (List (Mem σ α β)) α β) (hs : s.ttype = some u) :
    layerSetType (olayerKind cut nodes) t s = (if t = u then .ok () else .error .node, s) := by
  unfold layerSetType
  rw [hs]
  simp only
  by_cases h : u = t
  · rw [if_neg (by simpa using h), if_pos h.symm]
  · rw [if_pos h, if_neg (fun h' => h h'.symm)]

/-! ### Examples -/

/-- Nodes of input dimension 1 and 2, in training. -/
def lm1 : Mem (List (Nat × List (List Nat))) Nat Unit := .online odemo1 (oinit odemo1 (some 1) none none []).2
def lm2 : Mem (List (Nat × List (List Nat))) Nat Unit := .online odemo1 (oinit odemo1 (some 2) (some 2) none []).2
/-- An ordinary node that is not in training. -/
def lmP : Mem (List (Nat × List (List Nat))) Nat Unit :=
  .plain { pdemo with trainable := false } (init { pdemo with trainable := false } (some 1) (some 1) none []).2
def lm1o : Mem (List (Nat × List (List Nat))) Nat Unit := .online odemo1 (oinit odemo1 (some 1) (some 1) none []).2
/-- A node set to batch training. -/
def lmB : Mem (List (Nat × List (List Nat))) Nat Unit :=
  .online odemo1 (setTrainingType odemo1 .batch (oinit odemo1 (some 1) (some 1) none []).2).2

/-- A new layer. -/
def lay (cut : Arr Nat → Nat → Nat → Arr Nat) (ns : List (Mem (List (Nat × List (List Nat))) Nat Unit)) :
    OSt (List (Mem (List (Nat × List (List Nat))) Nat Unit)) Nat Unit :=
  match olayerInit cut layerInp ns none with
  | .ok s => s
  | .error _ => (oinit (olayerKind cut ns) none none none []).2

def lx : Arr Nat := ⟨2, 3, 1, [[1, 2, 3], [4, 5, 6]]⟩

/-- A layer of two nodes is built, trained and stopped: every node saw its own columns sample by sample. -/
example : isOk (otrain (olayerKind layerCut [lm1, lm2]) lx [] (lay layerCut [lm1, lm2])).1 = true ∧
    (otrain (olayerKind layerCut [lm1, lm2]) lx [] (lay layerCut [lm1, lm2])).2.node.st.map Mem.priv =
      [[(0, [[1]]), (0, [[4]])], [(0, [[2, 3]]), (0, [[5, 6]])]] ∧
    isOk (ostop (olayerKind layerCut [lm1, lm2])
      (otrain (olayerKind layerCut [lm1, lm2]) lx [] (lay layerCut [lm1, lm2])).2).1 = true := by
  decide +kernel

/-- The hypotheses of `online_layer_train` hold for it. -/
example : [lm1, lm2].any Mem.isTraining = true ∧ (lay layerCut [lm1, lm2]).node.training = true ∧
    (lay layerCut [lm1, lm2]).node.st.all (fun m => (Dims.inp m).isSome) = true ∧ lx.ndim = 2 ∧ lx.data.length = 2 ∧
    (lay layerCut [lm1, lm2]).node.inputDim = some lx.cols ∧ (lay layerCut [lm1, lm2]).node.dtype = none ∧
    [lm1, lm2].all (Mem.supported lx.dtype) = true := by
  decide +kernel

/-- With a node set to batch training, the layer trains with whole arrays (the other node takes them apart again); a node
that is not in training is left alone. -/
example : (lay layerCut [lm1, lmB, lmP]).ttype = some .batch ∧
    isOk (otrain (olayerKind layerCut [lm1, lmB, lmP]) lx [] (lay layerCut [lm1, lmB, lmP])).1 = true ∧
    (otrain (olayerKind layerCut [lm1, lmB, lmP]) lx [] (lay layerCut [lm1, lmB, lmP])).2.node.st.map Mem.priv =
      [[(0, [[1]]), (0, [[4]])], [(0, [[2], [5]])], []] := by
  decide +kernel

/-- A node switched to batch training after the layer was built is trained sample by sample. -/
example : let s := lay layerCut [lm1, lm1, lm1o]
    let s' := { s with node := { s.node with st := [lm1, lm1, lmB] } }
    (otrain (olayerKind layerCut [lm1, lm1, lm1o]) lx [] s').2.node.st.map Mem.priv =
      [[(0, [[1]]), (0, [[4]])], [(0, [[2]]), (0, [[5]])], [(0, [[3]]), (0, [[6]])]] := by
  decide +kernel

/-- An ordinary node in training is refused. -/
example : (match olayerInit layerCut layerInp [lm1, .plain pdemo (init pdemo (some 1) none none []).2] none with
    | .ok _ => none | .error e => some e) = some Err.type := by
  decide +kernel

/-- The same data for all the nodes. -/
example : (otrain (olayerKind sameCut [lm1, lm1]) (ox [[1], [2]]) []
      (match olayerInit sameCut sameInp [lm1, lm1] none with | .ok s => s | .error _ => lay sameCut [])).2.node.st.map Mem.priv =
    [[(0, [[1]]), (0, [[2]])], [(0, [[1]]), (0, [[2]])]] := by
  decide +kernel

/-- Three clones: incremental training goes through the parts of one sample after the other, batch training through the
parts of the array. -/
example : (otrain (ocloneKind lm1 3) lx [] (oinit (ocloneKind lm1 3) (some 3) none none lm1).2).2.node.st.priv =
      [(0, [[1]]), (0, [[2]]), (0, [[3]]), (0, [[4]]), (0, [[5]]), (0, [[6]])] ∧
    (otrain (ocloneKind lmB 3) lx []
        { (oinit (ocloneKind lmB 3) (some 3) none none lmB).2 with ttype := some .batch }).2.node.st.priv =
      [(0, [[1], [4]]), (0, [[2], [5]]), (0, [[3], [6]])] := by
  decide +kernel

/-- Executing a trained layer: the first node adds 2 (it has seen two blocks), so does the second. -/
example : let s := (otrain (olayerKind layerCut [lm1o, lm2]) lx [] (lay layerCut [lm1o, lm2])).2
    (olayerExecute layerCut (olayerKind layerCut [lm1o, lm2]) lx s).1.toOption.map (·.data) = some [[3, 4, 5], [6, 7, 8]] ∧
    s.node.outputDim = some 3 ∧ s.node.dtype = some 1 ∧ s.node.started = true := by
  decide +kernel

/-- C155 is violated for a layer whose output dimension is not known yet: executing it before any training trains every
inner node twice with the data (once through the checks of the inner node, once through the training of the layer), although
a node executed alone is trained once. -/
theorem execute_trains_twice_false :
    let s := lay layerCut [lm1, lm1]
    let x : Arr Nat := ⟨2, 2, 1, [[1, 2]]⟩
    isOk (olayerExecute layerCut (olayerKind layerCut [lm1, lm1]) x s).1 = true ∧
    (olayerExecute layerCut (olayerKind layerCut [lm1, lm1]) x s).2.node.st.map Mem.priv =
      [[(0, [[1]]), (0, [[1]])], [(0, [[2]]), (0, [[2]])]] ∧
    (lm1.execute (colBlock x 0 1)).2.priv = [(0, [[1]])] ∧ (lm1.execute (colBlock x 1 1)).2.priv = [(0, [[2]])] ∧
    -- with the output dimensions given, the nodes are trained once
    (olayerExecute layerCut (olayerKind layerCut [lm1o, lm1o]) x (lay layerCut [lm1o, lm1o])).2.node.st.map Mem.priv =
      [[(0, [[1]])], [(0, [[2]])]] := by
  decide +kernel

end Mdp.Online
