import Verif.Hinet.Layer
import Verif.Node.HookInv
import Verif.Flow.TrainProps

namespace Mdp.Layer

open Py Mdp.Node Mdp.Flow

variable {σ α β : Type}

/-! ### What any operation of a layer may do to an inner node -/

/-- The node is the same object, its invariant is kept and dimensions are write-once. -/
structure Adv (m n : Nd σ α β) : Prop where
  K : n.K = m.K
  inv : Sane m.K → Inv m.K m.s → Inv m.K n.s
  fwd : Fwd m.s n.s

theorem Adv.refl (m : Nd σ α β) : Adv m m := ⟨rfl, fun _ h => h, fwd_pre.refl _⟩

theorem Adv.trans {a b c : Nd σ α β} (h : Adv a b) (h' : Adv b c) : Adv a c :=
  ⟨h'.K.trans h.K, fun hs hi => by
    have h1 := h.inv hs hi
    have := h'.inv (h.K ▸ hs) (h.K ▸ h1)
    rw [h.K] at this; exact this, fwd_pre.trans h.fwd h'.fwd⟩

theorem Adv.of {r : Type} (nd : Nd σ α β) {m : NodeM σ α β r} (h1 : Sane nd.K → M.Keeps (Inv nd.K) m)
    (h2 : M.Moves Fwd m) : Adv nd ⟨nd.K, (m nd.s).2⟩ := ⟨rfl, fun hs hi => h1 hs nd.s hi, h2 nd.s⟩

abbrev AdvL (a b : List (Nd σ α β)) : Prop := List.Forall₂ Adv a b

theorem AdvL.refl (a : List (Nd σ α β)) : AdvL a a := by
  induction a with
  | nil => exact .nil
  | cons n r ih => exact .cons (.refl n) ih

theorem AdvL.trans {a b c : List (Nd σ α β)} (h : AdvL a b) (h' : AdvL b c) : AdvL a c := by
  induction h generalizing c with
  | nil => cases h'; exact .nil
  | cons h1 _ ih =>
    cases h' with
    | cons h2 h3 => exact .cons (h1.trans h2) (ih h3)

theorem setDtypes_adv (t : Nat) (ns : List (Nd σ α β)) : AdvL ns (setDtypes t ns).2 := by
  induction ns with
  | nil => exact .nil
  | cons nd r ih =>
    have h := Adv.of nd (m := setDtype nd.K (some t)) (fun _ => soft_keeps (setDtype_soft nd.K _))
      (soft_moves_fwd (setDtype_soft nd.K _))
    unfold setDtypes
    split
    · next e s heq => rw [heq] at h; exact .cons h (AdvL.refl r)
    · next s heq => rw [heq] at h; exact .cons h ih

theorem train_adv (nd : Nd σ α β) (x : Arr α) (args : List β) : Adv nd ⟨nd.K, (train nd.K x args nd.s).2⟩ :=
  Adv.of nd (fun hs => train_inv nd.K hs x args) (train_fwd nd.K x args)

theorem trainAll_adv (x : Arr α) (args : List β) (a : Nat) (ns : List (Nd σ α β)) :
    AdvL ns (trainAll x args a ns).2 := by
  induction ns generalizing a with
  | nil => exact .nil
  | cons nd r ih =>
    unfold trainAll
    split
    · exact .refl _
    · next w _ =>
      split
      · have h := train_adv nd (colBlock x a w) args
        split
        · next e s heq => rw [heq] at h; exact .cons h (AdvL.refl r)
        · next s heq => rw [heq] at h; exact .cons h (ih _)
      · exact .cons (.refl nd) (ih _)

theorem stopAll_adv (ns : List (Nd σ α β)) : AdvL ns (stopAll ns).2 := by
  induction ns with
  | nil => exact .nil
  | cons nd r ih =>
    unfold stopAll
    split
    · have h := Adv.of nd (m := stopTraining nd.K) (fun _ => stop_inv nd.K) (stop_fwd nd.K)
      split
      · next e s heq => rw [heq] at h; exact .cons h (AdvL.refl r)
      · next s heq => rw [heq] at h; exact .cons h ih
    · exact .cons (.refl nd) ih

theorem pre_adv (nd : Nd σ α β) (x : Arr α) : Adv nd ⟨nd.K, (preExecutionChecks nd.K x nd.s).2⟩ :=
  Adv.of nd (fun hs => preExec_inv nd.K hs x) (preExec_fwd nd.K x)

theorem preAll_adv (x : Arr α) (a : Nat) (ns : List (Nd σ α β)) : AdvL ns (preAll x a ns).2 := by
  induction ns generalizing a with
  | nil => exact .nil
  | cons nd r ih =>
    unfold preAll
    split
    · exact .refl _
    · next w _ =>
      have h := pre_adv nd (colBlock x a w)
      split
      · next e s heq => rw [heq] at h; exact .cons h (AdvL.refl r)
      · next s heq => rw [heq] at h; exact .cons h (ih _)

theorem exec_adv (nd : Nd σ α β) (x : Arr α) : Adv nd ⟨nd.K, (execute nd.K x nd.s).2⟩ :=
  Adv.of nd (fun hs => execute_inv nd.K hs x) (execute_fwd nd.K x)

theorem inv_adv (nd : Nd σ α β) (x : Arr α) : Adv nd ⟨nd.K, (inverse nd.K x nd.s).2⟩ :=
  Adv.of nd (fun _ => inverse_inv nd.K x) (inverse_fwd nd.K x)

theorem execAll_adv (x : Arr α) (y : Option (Arr α)) (a : Nat) (ns : List (Nd σ α β)) :
    AdvL ns (execAll x y a ns).2 := by
  induction ns generalizing a y with
  | nil => cases y <;> exact .nil
  | cons nd r ih =>
    unfold execAll
    split
    · next o w _ _ =>
      have h := exec_adv nd (colBlock x a w)
      split
      · next e s heq => rw [heq] at h; exact .cons h (AdvL.refl r)
      · next v s heq =>
        rw [heq] at h
        split
        · exact .cons h (AdvL.refl r)
        · exact .cons h (ih _ _)
    · exact .refl _

theorem invAll_adv (x : Arr α) (y : Option (Arr α)) (a : Nat) (ns : List (Nd σ α β)) :
    AdvL ns (invAll x y a ns).2 := by
  induction ns generalizing a y with
  | nil => cases y <;> exact .nil
  | cons nd r ih =>
    unfold invAll
    split
    · next o w _ _ =>
      have h := inv_adv nd (colBlock x a w)
      split
      · next e s heq => rw [heq] at h; exact .cons h (AdvL.refl r)
      · next v s heq =>
        rw [heq] at h
        split
        · exact .cons h (AdvL.refl r)
        · exact .cons h (ih _ _)
    · exact .refl _

theorem withDtype_adv {r : Type} (t : Nat) (f : List (Nd σ α β) → Except Err r × List (Nd σ α β))
    (hf : ∀ ns, AdvL ns (f ns).2) (ns : List (Nd σ α β)) : AdvL ns (withDtype t f ns).st := by
  have h := setDtypes_adv t ns
  unfold withDtype
  split
  · next heq => rw [heq] at h; exact h
  · next heq => rw [heq] at h; exact h.trans (hf _)

theorem stopHook_adv (ns : List (Nd σ α β)) : AdvL ns (stopHook ns).st := by
  have h := stopAll_adv ns
  unfold stopHook
  split
  · next heq => rw [heq] at h; exact h
  · next heq => rw [heq] at h; exact h

/-- A property of inner nodes that survives every operation. -/
structure Robust (P : Nd σ α β → Prop) : Prop where
  adv : ∀ m n, Adv m n → P m → P n

theorem Robust.list {P : Nd σ α β → Prop} (hP : Robust P) {a b : List (Nd σ α β)} (h : AdvL a b)
    (ha : ∀ n ∈ a, P n) : ∀ n ∈ b, P n := by
  induction h with
  | nil => simp
  | cons h1 _ ih =>
    intro n hn
    rcases List.mem_cons.1 hn with rfl | hn
    · exact hP.adv _ _ h1 (ha _ (by simp))
    · exact ih (fun n hn => ha n (by simp [hn])) n hn

theorem layer_hookKeeps (nodes : List (Nd σ α β)) {P : Nd σ α β → Prop} (hP : Robust P) :
    HookKeeps (layerKind nodes) (fun ns => ∀ n ∈ ns, P n) where
  trainH _ ns x a h := hP.list (withDtype_adv _ _ (trainAll_adv x a 0) ns) h
  stopH _ ns h := hP.list (stopHook_adv ns) h
  execH ns x h := hP.list (withDtype_adv _ _ (execAll_adv x none 0) ns) h
  invH ns y h := hP.list (invAll_adv y none 0 ns) h

theorem preWith_adv (K : Kind (List (Nd σ α β)) α β) (loop : List (Nd σ α β) → Except Err Unit × List (Nd σ α β))
    (hl : ∀ ns, AdvL ns (loop ns).2) (s : St (List (Nd σ α β)) α β) : AdvL s.st (preWith K loop s).2.st := by
  unfold preWith
  split
  · exact .refl _
  · have h := hl s.st
    split
    · next heq => rw [heq] at h; exact h
    · next ns heq =>
      rw [heq] at h
      split
      · exact h
      · next n _ =>
        have := setOutputDim_st K (some n) { s with st := ns }
        unfold SameSt at this
        rw [this]; exact h

theorem layerPre_adv (x : Arr α) (ns : List (Nd σ α β)) :
    AdvL ns (if x.ndim ≠ 2 then ((.error .index, ns) : Except Err Unit × List (Nd σ α β)) else preAll x 0 ns).2 := by
  split
  · exact .refl _
  · exact preAll_adv x 0 ns

theorem layerExecute_keeps (nodes : List (Nd σ α β)) {P : Nd σ α β → Prop} (hP : Robust P) (x : Arr α) :
    M.Keeps (fun s => ∀ n ∈ s.st, P n) (Layer.execute (layerKind nodes) x) := by
  unfold Layer.execute
  refine .bind (fun s hs => hP.list (preWith_adv _ _ (layerPre_adv x) s) hs) fun _ => ?_
  exact (layer_hookKeeps nodes hP).keeps_execute x

/-! ### The execution loop -/

theorem assign_exact (v : Arr α) (rows w : Nat) (h1 : v.ndim = 2) (h2 : v.nrows = rows) (h3 : v.cols = w) :
    assign rows w v = .ok v.data := by
  unfold assign
  rw [if_pos ⟨h1, .inl h2, .inl h3⟩]
  simp only [if_pos h3, if_pos h2]

/-- The rows collected so far. -/
structure Acc (n c : Nat) (pre : Nat → List α) (y : Option (Arr α)) : Prop where
  none : y = none → c = 0 ∧ ∀ k, pre k = []
  some : ∀ z, y = some z → z.ndim = 2 ∧ z.cols = c ∧ z.nrows = n ∧ ∀ k, k < n → z.data[k]? = some (pre k)

theorem store_exact (n c o : Nat) (pre : Nat → List α) (y : Option (Arr α)) (v : Arr α) (ha : Acc n c pre y)
    (h1 : v.ndim = 2) (h2 : v.nrows = n) (h3 : v.cols = o) :
    ∃ z, store y o v = .ok z ∧ Acc n (c + o) (fun k => pre k ++ (v.data[k]?).getD []) (some z) ∧
      some z.dtype = (y.map (·.dtype)).or (some v.dtype) := by
  unfold store
  cases y with
  | none =>
    obtain ⟨hc, hp⟩ := ha.none rfl
    simp only [assign_exact v v.nrows o h1 rfl h3]
    refine ⟨_, rfl, ⟨by simp, ?_⟩, rfl⟩
    rintro z hz
    cases hz
    refine ⟨rfl, by simp [hc], h2, ?_⟩
    intro k hk
    have : k < v.data.length := by unfold Arr.nrows at h2; omega
    simp [hp, List.getElem?_eq_getElem this]
  | some y =>
    obtain ⟨e1, e2, e3, e4⟩ := ha.some y rfl
    simp only [assign_exact v y.nrows o h1 (by omega) h3]
    refine ⟨_, rfl, ⟨by simp, ?_⟩, rfl⟩
    rintro z hz
    cases hz
    unfold Arr.nrows at e3 h2
    refine ⟨e1, by simp [addCols, e2], by simp [addCols, Arr.nrows]; omega, ?_⟩
    intro k hk
    have hk1 : k < v.data.length := by omega
    have := e4 k hk
    simp [addCols, List.getElem?_zipWith, this, List.getElem?_eq_getElem hk1]

/-- `execute` returns a result of the declared shape. -/
def Honest (K : Kind σ α β) : Prop := ∀ x s y s', Inv K s → execute K x s = (.ok y, s') →
  y.ndim = 2 ∧ s'.outputDim = some y.cols ∧ y.nrows = x.nrows

/-- The successful calls of the inner nodes. -/
inductive Runs (x : Arr α) : Nat → List (Nd σ α β) → List (Nd σ α β) → List (Arr α) → Prop
  | nil (a) : Runs x a [] [] []
  | cons {a w o nd s v r r' vs} (hi : nd.s.inputDim = some w) (ho : nd.s.outputDim = some o)
      (he : execute nd.K (colBlock x a w) nd.s = (.ok v, s)) (hr : Runs x (a + w) r r' vs) :
      Runs x a (nd :: r) (⟨nd.K, s⟩ :: r') (v :: vs)

theorem colBlock_nrows (x : Arr α) (a w : Nat) : (colBlock x a w).nrows = x.nrows := by
  simp [colBlock, Arr.nrows]

theorem fwd_some {s t : St σ α β} (h : Fwd s t) {o : Nat} (ho : s.outputDim = some o) : t.outputDim = some o := by
  rcases h.out with h | h
  · rw [ho] at h; cases h
  · rw [h, ho]

theorem execAll_ok (x : Arr α) (ns ns' : List (Nd σ α β)) (y0 : Option (Arr α)) (y : Arr α) (a c : Nat)
    (pre : Nat → List α) (hh : ∀ nd ∈ ns, Honest nd.K ∧ Inv nd.K nd.s) (ha : Acc x.nrows c pre y0)
    (h : execAll x y0 a ns = (.ok y, ns')) :
    ∃ vs o, Runs x a ns ns' vs ∧ outDimSum ns' = some o ∧
      Acc x.nrows (c + o) (fun k => pre k ++ (vs.map fun v => (v.data[k]?).getD []).flatten) (some y) ∧
      some y.dtype = (y0.map (·.dtype)).or (vs.head?.map (·.dtype)) := by
  induction ns generalizing ns' y0 a c pre with
  | nil =>
    cases y0 with
    | none => simp [execAll] at h
    | some z =>
      simp only [execAll, Prod.mk.injEq, Except.ok.injEq] at h
      obtain ⟨rfl, rfl⟩ := h
      exact ⟨[], 0, .nil a, rfl, by simpa using ha, rfl⟩
  | cons nd r ih =>
    unfold execAll at h
    split at h
    · next o w ho hi =>
      split at h
      · cases h
      · next v s he =>
        obtain ⟨e1, e2, e3⟩ := (hh nd (by simp)).1 _ _ _ _ (hh nd (by simp)).2 he
        rw [colBlock_nrows] at e3
        have hf := execute_fwd nd.K (colBlock x a w) nd.s
        rw [he] at hf
        have ho' := fwd_some hf ho
        simp only at ho'
        rw [ho'] at e2
        have e2 := (Option.some.inj e2).symm
        obtain ⟨z, hz, hacc, hdt⟩ := store_exact x.nrows c o pre y0 v ha e1 e3 e2
        rw [hz] at h
        simp only at h
        have h1 := (Prod.ext_iff.1 h).1
        have h2 := (Prod.ext_iff.1 h).2
        simp only at h1 h2
        obtain ⟨vs, o', hr, hsum, hacc', hdt'⟩ := ih _ (some z) (a + w) (c + o) _
          (fun n hn => hh n (by simp [hn])) hacc (Prod.ext h1 rfl)
        refine ⟨v :: vs, o + o', ?_, ?_, ?_, ?_⟩
        · rw [← h2]; exact .cons hi ho he hr
        · rw [← h2]; simp [outDimSum, ho', hsum]
        · rw [← Nat.add_assoc]
          simpa using hacc'
        · rw [hdt']; simpa using hdt
    · cases h

/-! ### Executing a node -/

theorem execute_ok_hook {σ : Type} (K : Kind σ α β) (x y : Arr α) (s s' : St σ α β)
    (h : execute K x s = (.ok y, s')) : ∃ s2, preExecutionChecks K x s = (.ok (), s2) ∧
      (K.execHook s2.st (refcast s2.dtype x)).res = .ok y ∧ s'.st = (K.execHook s2.st (refcast s2.dtype x)).st := by
  unfold execute at h
  obtain ⟨_, s1, h1, h⟩ := M.bind_eq_ok h
  refine ⟨s1, h1, ?_⟩
  simp only [M.bind_def, M.get_def, logged] at h
  have h2 := (Prod.ext_iff.1 h).2
  have h3 := (Prod.ext_iff.1 h).1
  simp only at h2 h3
  constructor
  · unfold runHook at h3
    generalize hr : (do
      M.modify (fun s => { s with st := (K.execHook s1.st (refcast s1.dtype x)).st })
      runSets K (K.execHook s1.st (refcast s1.dtype x)).sets
      M.lift (K.execHook s1.st (refcast s1.dtype x)).res : NodeM σ α β (Arr α)) s1 = R at h3
    obtain ⟨r, s3⟩ := R
    simp only at h3
    subst h3
    obtain ⟨_, s4, h4, hr⟩ := M.bind_eq_ok hr
    obtain ⟨_, s5, h5, hr⟩ := M.bind_eq_ok hr
    exact (Prod.ext_iff.1 hr).1
  · rw [← h2]
    exact runHook_st K _ s1

theorem execute_dtype (K : Kind σ α β) (s : St σ α β) (hs : Stable s) (hp : PureExec K) (x : Arr α) (t : Nat) :
    (execute K { x with dtype := t } s).1 = (execute K x s).1 := by
  rw [execute_stable K s hs _ (hp s.st), execute_stable K s hs _ (hp s.st)]
  have e1 : refcast s.dtype { x with dtype := t } = refcast s.dtype x := rfl
  have e2 : ({ x with dtype := t } : Arr α).nrows = x.nrows := rfl
  rw [e1, e2]

/-- Column at which the block of the `i`-th inner node starts. -/
def offset (ns : List (Nd σ α β)) (i : Nat) : Nat := ((ns.take i).map fun nd => nd.s.inputDim.getD 0).sum

theorem runs_get (x : Arr α) (t a : Nat) (ns ns' : List (Nd σ α β)) (vs : List (Arr α))
    (h : Runs { x with dtype := t } a ns ns' vs)
    (hg : ∀ nd ∈ ns, Sane nd.K ∧ PureExec nd.K ∧ Inv nd.K nd.s) :
    vs.length = ns'.length ∧ ∀ i nd, ns'[i]? = some nd → ∃ v w, vs[i]? = some v ∧ nd.s.inputDim = some w ∧
      Stable nd.s ∧ (execute nd.K (colBlock x (a + offset ns' i) w) nd.s).1 = .ok v := by
  induction ns generalizing a ns' vs with
  | nil => cases h; simp
  | cons nd r ih =>
    cases h with
    | cons hi ho he hr =>
      next w o s v r' vs =>
      obtain ⟨h1, h2⟩ := ih _ _ _ hr (fun n hn => hg n (by simp [hn]))
      obtain ⟨g1, g2, g3⟩ := hg nd (by simp)
      obtain ⟨hst, hinv, e1, e2, e3, e4⟩ := execute_ok_stable nd.K g1 g2 _ _ _ _ g3 he
      have hf := execute_fwd nd.K (colBlock { x with dtype := t } a w) nd.s
      rw [he] at hf
      have hi' : s.inputDim = some w := by
        rcases hf.inp with hf | hf
        · rw [hi] at hf; cases hf
        · exact hf.trans hi
      refine ⟨by simp [h1], ?_⟩
      intro i n hn
      cases i with
      | zero =>
        simp only [List.getElem?_cons_zero, Option.some.injEq] at hn
        subst hn
        refine ⟨v, w, rfl, hi', hst, ?_⟩
        have : offset (⟨nd.K, s⟩ :: r') 0 = 0 := rfl
        rw [this, Nat.add_zero, execute_stable nd.K s hst _ (g2 s.st), if_pos ⟨e1, e2, e3⟩]
        · exact e4
      | succ i =>
        simp only [List.getElem?_cons_succ] at hn
        obtain ⟨v', w', f1, f2, f3, f4⟩ := h2 i n hn
        refine ⟨v', w', by simpa using f1, f2, f3, ?_⟩
        have : a + offset (⟨nd.K, s⟩ :: r') (i + 1) = a + w + offset r' i := by
          simp [offset, hi']; omega
        rw [this]; exact f4

end Mdp.Layer
