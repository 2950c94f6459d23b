import Verif.Hinet.LayerTrain
import Verif.Hinet.CloneProps

/-! # Training phases of a layer; a layer executes whenever its inner nodes do -/

namespace Mdp.Layer

open Py Mdp.Node Mdp.Flow

variable {σ α β : Type}

theorem init_soft {σ : Type} (K : Kind σ α β) (i o t : Option Nat) (st : σ) :
    (init K i o t st).2.phase = (if K.trainable then 0 else -1) ∧ (init K i o t st).2.training = K.trainable ∧
      (init K i o t st).2.started = false := by
  have p := soft_pre K
  have h : M.Moves (Soft K) (do setInputDim K i; setOutputDim K o; setDtype K t : NodeM σ α β Unit) :=
    .bind p (setInputDim_soft K i) fun _ => .bind p (setOutputDim_soft K o) fun _ => setDtype_soft K t
  have := h ⟨none, none, none, K.trainable, if K.trainable then 0 else -1, false, st, []⟩
  exact ⟨this.phase, this.training, this.started⟩

theorem layerInit_facts (nodes : List (Nd σ α β)) (dtype : Option Nat) (L : Nd (List (Nd σ α β)) α β)
    (h : layerInit nodes dtype = .ok L) : L.K = layerKind nodes ∧ (∀ nd ∈ nodes, nd.s.inputDim ≠ none) ∧
      L.s.started = false ∧ L.s.training = (layerKind nodes).trainable ∧
      L.s.phase = (if (layerKind nodes).trainable then 0 else -1) ∧
      L.s.st.length = nodes.length ∧ ∀ (i : Nat) (nd : Nd σ α β), nodes[i]? = some nd →
        ∃ s1, L.s.st[i]? = some ⟨nd.K, s1⟩ ∧ Soft nd.K nd.s s1 := by
  unfold layerInit at h
  split at h
  · cases h
  · next t hc =>
    have hin : ∀ nd ∈ nodes, nd.s.inputDim ≠ none := by
      unfold checkProps at hc
      split at hc
      · cases hc
      · next hany =>
        intro nd hnd e
        exact hany (List.any_eq_true.2 ⟨nd, hnd, by simp [e]⟩)
    simp only at h
    split at h
    · cases h
    · next s hs =>
      have hst := congrArg (fun r => r.2.st) hs
      simp only [init_st] at hst
      have f := init_soft (layerKind nodes) (inDimSum nodes) (outDimSum nodes) t
      have f1 : s.phase = (if (layerKind nodes).trainable then 0 else -1) ∧
          s.training = (layerKind nodes).trainable ∧ s.started = false := by
        cases t with
        | none => have := f nodes; rw [hs] at this; exact this
        | some t => have := f (setDtypes t nodes).2; rw [hs] at this; exact this
      obtain ⟨f1, f2, f3⟩ := f1
      split at h
      · cases h
      · next hok =>
        cases h
        refine ⟨rfl, hin, f3, f2, f1, ?_⟩
        simp only [← hst]
        cases t with
        | none => exact ⟨rfl, fun i nd hi => ⟨nd.s, hi, Soft.refl _⟩⟩
        | some t =>
          simp only at hok ⊢
          obtain ⟨g1, g2⟩ := setDtypes_get t nodes _ (Prod.ext hok rfl)
          refine ⟨g1, fun i nd hi => ?_⟩
          obtain ⟨s1, k1, k2, _⟩ := g2 i nd hi
          exact ⟨s1, k1, k2⟩

theorem tracks_init (nodes : List (Nd σ α β)) (hn : ∀ nd ∈ nodes, Sane nd.K ∧ Inv nd.K nd.s)
    (hst : ∀ nd ∈ nodes, nd.s.started = false) (dtype : Option Nat) (L : Nd (List (Nd σ α β)) α β)
    (h : layerInit nodes dtype = .ok L) : Tracks nodes [] [] L.s.st := by
  obtain ⟨-, hin, -, -, -, hlen, hget⟩ := layerInit_facts nodes dtype L h
  refine ⟨hlen, adv_inp (layerInit_st nodes dtype L h).2 hin, fun i nd0 w hi _ => ?_⟩
  obtain ⟨s1, k1, k2⟩ := hget i nd0 hi
  have hmem := List.mem_of_getElem? hi
  refine ⟨_, k1, rfl, k2.inv (hn nd0 hmem).2, ?_, ?_, 0, .inr ⟨rfl, rfl⟩, ?_⟩
  · simpa using k2.phase
  · show s1.started = true ↔ _
    rw [k2.started, hst nd0 hmem]; simp
  · show ts s1 = _
    rw [ts_soft k2]; simp [fullTrace, phaseEv, blockOf]

theorem le_foldr_max (l : List Nat) (n : Nat) (h : n ∈ l) : n ≤ l.foldr max 0 := by
  induction l with
  | nil => simp at h
  | cons m r ih =>
    rw [List.foldr_cons]
    rcases List.mem_cons.1 h with e | e
    · subst e; omega
    · have := ih e; omega

/-- C23: go through `k = ws.length` training phases of a new layer (training on the chunks of each phase and
closing it, none of the calls raising). Then every inner node has finished `min k n` phases, `n` being the
number it had left; in each of them its hooks saw its own block of columns of the chunks of that phase, in order, and
nothing else. When the layer is finished, so are all inner nodes. -/
theorem layer_phases (nodes : List (Nd σ α β)) (hK : ∀ nd ∈ nodes, Sane nd.K)
    (hr : ∀ nd ∈ nodes, Reachable nd.K nd.s) (hst : ∀ nd ∈ nodes, nd.s.started = false)
    (dtype : Option Nat) (L : Nd (List (Nd σ α β)) α β) (hL : layerInit nodes dtype = .ok L)
    (ws : List (List (Arr α × List β))) (s' : St (List (Nd σ α β)) α β)
    (h : runPhases L.K ws L.s = (.ok (), s')) :
    s'.st.length = nodes.length ∧
    (∀ (i : Nat) (nd : Nd σ α β), nodes[i]? = some nd → ∃ nd' w t, s'.st[i]? = some nd' ∧ nd'.K = nd.K ∧
      nd.s.inputDim = some w ∧ (ws ≠ [] → nd'.s.dtype = some t) ∧
      nd'.s.phase = nd.s.phase + (min ws.length (left nd) : Nat) ∧ left nd' = left nd - ws.length ∧
      ts nd'.s = ts nd.s ++ history t nd.s.phase.toNat ((ws.take (left nd)).map (blockOf (offset nodes i) w))) ∧
    (s'.training = false → ∀ nd ∈ s'.st, nd.s.training = false) := by
  have hn : ∀ nd ∈ nodes, Sane nd.K ∧ Inv nd.K nd.s := fun nd hnd => ⟨hK nd hnd, reachable_inv (hK nd hnd) (hr nd hnd)⟩
  obtain ⟨hLK, hin, f1, f2, f3, -, -⟩ := layerInit_facts nodes dtype L hL
  have ht := tracks_init nodes hn hst dtype L hL
  rw [hLK] at h
  obtain ⟨g1, g2, g3, g4, g5⟩ := runPhases_tracks nodes hn hin [] ws L.s s' ht f1 h
  rw [List.nil_append] at g1
  have hleft : ∀ (nd0 nd : Nd σ α β) (a w : Nat), Inv nd0.K nd0.s → Track nd0 a w ws [] nd →
      left nd = left nd0 - ws.length := by
    intro nd0 nd a w h0 htr
    have hp := htr.phase
    unfold left remaining at hp ⊢
    rw [htr.K]
    split
    · next hk =>
      rw [if_pos hk] at hp
      have := (h0.tr hk).2.1
      omega
    · simp
  refine ⟨g1.len, fun i nd hi => ?_, fun htr => ?_⟩
  · obtain ⟨w, hw⟩ := Option.ne_none_iff_exists'.1 (hin nd (List.mem_of_getElem? hi))
    obtain ⟨nd', k1, k2⟩ := g1.each i nd w hi hw
    obtain ⟨t, ht, hh⟩ := k2.hist
    refine ⟨nd', w, t, k1, k2.K, hw, ?_, k2.phase, hleft nd nd' _ w (hn nd (List.mem_of_getElem? hi)).2 k2, ?_⟩
    · intro hne
      exact ht.resolve_right fun e => hne e.1
    · rw [hh]
      simp [history_eq, blockOf, phaseEv]
  · intro nd hnd
    obtain ⟨i, hi⟩ := List.mem_iff_getElem?.1 hnd
    have hlt : i < nodes.length := by
      rw [← g1.len]; exact (List.getElem?_eq_some_iff.1 hi).1
    obtain ⟨nd0, hi0⟩ : ∃ nd0, nodes[i]? = some nd0 := ⟨nodes[i], List.getElem?_eq_getElem hlt⟩
    have hmem := List.mem_of_getElem? hi0
    obtain ⟨w, hw⟩ := Option.ne_none_iff_exists'.1 (hin nd0 hmem)
    obtain ⟨nd', k1, k2⟩ := g1.each i nd0 w hi0 hw
    rw [hi] at k1
    cases k1
    have htt := k2.training (hn nd0 hmem).2
    by_contra hc
    rw [Bool.not_eq_false] at hc
    have hlt := htt.1 hc
    -- the node still has phases left, so the layer has
    have hk : nd0.K.trainable = true := by
      by_contra hk
      simp [left, remaining, hk] at hlt
    have hph := (hn nd0 hmem).2.tr hk
    have hle : (left nd0 : Int) ≤ nd0.K.nPhases := by
      simp only [left, remaining, hk, if_true]
      omega
    have htrn : nd0.s.training = true := by
      rw [hph.2.2.1]
      simp only [left, remaining, hk, if_true] at hlt
      omega
    have hmax : nd0.K.nPhases ≤ (layerKind nodes).nPhases := by
      simp only [layerKind]
      exact le_foldr_max _ _ (List.mem_map.2 ⟨nd0, hmem, rfl⟩)
    have hlt' : (layerKind nodes).trainable = true := List.any_eq_true.2 ⟨nd0, hmem, htrn⟩
    cases ws with
    | nil => rw [g4 rfl, f2, hlt'] at htr; cases htr
    | cons w r =>
      rw [g3 (by simp)] at htr
      simp only [hlt', forall_const, decide_not, Bool.not_eq_false', decide_eq_true_eq] at htr
      rw [g2, f3, hlt'] at htr
      simp only [if_true] at htr
      omega

/-! ### A layer executes whenever its inner nodes do -/

theorem execAll_returns (x : Arr α) (ns : List (Nd σ α β)) (y0 : Option (Arr α)) (a c : Nat) (pre : Nat → List α)
    (hacc : Acc x.nrows c pre y0) (hne : y0 = none → ns ≠ [])
    (hg : ∀ (i : Nat) (nd : Nd σ α β), ns[i]? = some nd → ∃ w v, nd.s.inputDim = some w ∧
      (execute nd.K (colBlock x (a + offset ns i) w) nd.s).1 = .ok v ∧ v.ndim = 2 ∧ v.nrows = x.nrows ∧
      nd.s.outputDim = some v.cols) : ∃ y, (execAll x y0 a ns).1 = .ok y := by
  induction ns generalizing y0 a c pre with
  | nil =>
    cases y0 with
    | none => exact absurd rfl (hne rfl)
    | some y => exact ⟨y, rfl⟩
  | cons nd r ih =>
    obtain ⟨w, v, h1, h2, h3, h4, h5⟩ := hg 0 nd rfl
    have e0 : a + offset (nd :: r) 0 = a := by simp [offset]
    rw [e0] at h2
    obtain ⟨z, hz, hacc', -⟩ := store_exact x.nrows c v.cols pre y0 v hacc h3 h4 rfl
    obtain ⟨y, hy⟩ := ih (some z) (a + w) (c + v.cols) _ hacc' (by simp) (fun i m hi => by
      obtain ⟨w', v', k⟩ := hg (i + 1) m (by simpa using hi)
      rw [offset_succ nd r w i h1, ← Nat.add_assoc] at k
      exact ⟨w', v', k⟩)
    refine ⟨y, ?_⟩
    simp only [execAll, h5, h1]
    generalize execute nd.K (colBlock x a w) nd.s = R at h2
    obtain ⟨res, s⟩ := R
    simp only at h2
    subst h2
    simp only [hz]
    exact hy

theorem setDtypes_all (t : Nat) (ns : List (Nd σ α β)) (h : ∀ nd ∈ ns, nd.s.dtype = some t ∧ nd.K.supported t = true) :
    setDtypes t ns = (.ok (), ns) := by
  induction ns with
  | nil => rfl
  | cons nd r ih =>
    simp only [setDtypes, setDtype_same nd t (h nd (by simp)).1 (h nd (by simp)).2,
      ih (fun m hm => h m (by simp [hm]))]

/-- C20, the other direction: `layer.execute(x)` returns whenever `x` has the right shape and every inner node,
executed on its block of columns, returns something of its declared shape. The layer and the inner nodes are
trained and have the same dtype. -/
theorem layer_execute_returns (nodes : List (Nd σ α β)) (s : St (List (Nd σ α β)) α β) (hs : Stable s) (t : Nat)
    (ht : s.dtype = some t) (hne : s.st ≠ [])
    (hdt : ∀ nd ∈ s.st, Stable nd.s ∧ PureExec nd.K ∧ nd.s.dtype = some t ∧ nd.K.supported t = true)
    (x : Arr α) (h2 : x.ndim = 2) (hc : s.inputDim = some x.cols) (hr : 0 < x.nrows)
    (hg : ∀ (i : Nat) (nd : Nd σ α β), s.st[i]? = some nd → ∃ w v, nd.s.inputDim = some w ∧
      (execute nd.K (colBlock x (offset s.st i) w) nd.s).1 = .ok v ∧ v.ndim = 2 ∧ v.nrows = x.nrows ∧
      nd.s.outputDim = some v.cols) :
    ∃ y, (Layer.execute (layerKind nodes) x s).1 = .ok y := by
  unfold Layer.execute
  rw [M.bind_def]
  obtain ⟨o, ho⟩ := Option.ne_none_iff_exists'.1 hs.out
  have : preWith (layerKind nodes) (fun ns => if x.ndim ≠ 2 then (.error .index, ns) else preAll x 0 ns) s =
      (.ok (), s) := by
    unfold preWith; rw [ho]
  rw [this]
  simp only
  rw [execute_stable_res _ _ hs x (fun x => withDtype_sets _ _ _), if_pos ⟨h2, hc, hr⟩, ht]
  have hcast : (refcast (some t) x).dtype = t := rfl
  simp only [layerKind, withDtype, hcast, setDtypes_all t s.st fun nd hnd => (hdt nd hnd).2.2]
  refine execAll_returns (refcast (some t) x) s.st none 0 0 (fun _ => []) ⟨fun _ => ⟨rfl, fun _ => rfl⟩, by simp⟩
    (fun _ => hne) fun i nd hi => ?_
  obtain ⟨w, v, k1, k2, k3⟩ := hg i nd hi
  have hnd := hdt nd (List.mem_of_getElem? hi)
  refine ⟨w, v, k1, ?_, k3⟩
  rw [Nat.zero_add, ← k2]
  exact execute_dtype nd.K nd.s hnd.1 hnd.2.1 (colBlock x (offset s.st i) w) t

/-! ### Examples -/

/-- A class with `n` training phases that shifts its data by the number of rows it was trained on; `bad`
instances do not accept training data that begins with 0 (`_check_train_args`). -/
def shiftKind (n : Nat) (bad : Bool) : Kind Nat Nat Unit where
  trainable := decide (0 < n)
  invertible := true
  preserveDim := false
  nPhases := n
  supported := fun _ => true
  reqArgs := 0
  checkTrainArgs := fun _ x _ => if bad ∧ (x.data.headD []).headD 1 = 0 then .error .training else .ok ()
  trainHook := fun _ st x _ => ⟨st + x.nrows, [.out x.cols], .ok ()⟩
  stopHook := fun _ st => ⟨st, [], .ok ()⟩
  execHook := fun st x => ⟨st, [.out x.cols], .ok { x with data := x.data.map (·.map (· + st)) }⟩
  invHook := fun st x => ⟨st, [], .ok { x with data := x.data.map (·.map (· - st)) }⟩

def shiftNode (n d : Nat) (bad : Bool) : Nd Nat Nat Unit :=
  ⟨shiftKind n bad, (init (shiftKind n bad) (some d) none none 0).2⟩

theorem shiftNode_reachable (n d : Nat) (bad : Bool) : Reachable (shiftNode n d bad).K (shiftNode n d bad).s :=
  ⟨some d, none, none, 0, [], rfl, rfl⟩

theorem shiftKind_sane (n : Nat) (bad : Bool) : Sane (shiftKind n bad) := by
  intro h; simpa [shiftKind] using h

def exNodes : List (Nd Nat Nat Unit) := [shiftNode 1 1 false, shiftNode 2 2 false, shiftNode 0 1 false]

def exX : Arr Nat := ⟨2, 4, 7, [[1, 2, 3, 4], [5, 6, 7, 8]]⟩

/-- Observable part of a layer: did it return, its own phase, the phases and the data of the inner nodes. -/
def obs {r : Type} (R : Except Err r × St (List (Nd Nat Nat Unit)) Nat Unit) : Bool × Int × List (Int × Nat) :=
  (isOk R.1, R.2.phase, R.2.st.map fun nd => (nd.s.phase, nd.s.st))

def layerSt (nodes : List (Nd Nat Nat Unit)) : Option (St (List (Nd Nat Nat Unit)) Nat Unit) :=
  match layerInit nodes none with
  | .ok L => some L.s
  | .error _ => none

/-- A layer of nodes with one, two and no training phases goes through its two phases. -/
example : (∀ nd ∈ exNodes, Sane nd.K ∧ Reachable nd.K nd.s ∧ nd.s.started = false) ∧
    (layerSt exNodes).map (fun s => obs (runPhases (layerKind exNodes) [[(exX, []), (exX, [])], [(exX, [])]] s)) =
      some (true, 2, [(1, 4), (2, 6), (-1, 0)]) := by
  refine ⟨?_, by decide +kernel⟩
  intro nd hnd
  simp only [exNodes, List.mem_cons, List.not_mem_nil, or_false] at hnd
  rcases hnd with rfl | rfl | rfl <;> exact ⟨shiftKind_sane _ _, shiftNode_reachable _ _ _, rfl⟩

/-- A chunk on which the second node of the layer below raises. -/
def badX : Arr Nat := ⟨2, 2, 7, [[1, 0]]⟩
def goodX : Arr Nat := ⟨2, 2, 7, [[1, 1]]⟩

def desyncNodes : List (Nd Nat Nat Unit) := [shiftNode 2 1 false, shiftNode 2 1 true]

/-- C23 fails when calls raise and the user goes on: after a `train` that raises in the second inner node and a
`stop_training` that raises for the same reason, the first node is one phase ahead. One completed phase of
the layer later it has finished two phases. -/
theorem layer_phases_desync :
    ∃ s : St (List (Nd Nat Nat Unit)) Nat Unit, layerSt desyncNodes = some s ∧
      let K := layerKind desyncNodes
      let s1 := (train K badX [] s).2
      let s2 := (stopTraining K s1).2
      let s3 := (train K goodX [] s2).2
      let r4 := stopTraining K s3
      isOk r4.1 = true ∧ r4.2.phase = 1 ∧ r4.2.st.map (fun nd => nd.s.phase) = [2, 1] := by
  refine ⟨(layerSt desyncNodes).getD ⟨none, none, none, false, 0, false, [], []⟩, rfl, ?_⟩
  decide +kernel

end Mdp.Layer
