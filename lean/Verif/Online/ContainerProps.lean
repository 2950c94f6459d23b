import Verif.Online.FlowProps
import Verif.Flow.ContainerProps

/-!
# Properties of the `OnlineFlow` container (C89)
-/

namespace Mdp.Online

open Py Mdp.Node Mdp.Flow

variable {σ α β : Type}

/-! ## Specification -/

/-- Which nodes a flow may contain: at least one, and all but the last are online nodes, or not in training. -/
def Compatible (l : List (Mem σ α β)) : Prop :=
  l ≠ [] ∧ ∀ m ∈ l.dropLast, m.isOnline = true ∨ m.isTraining = false

/-- The bookkeeping of a flow: compatible nodes, and for every node the number of arguments it needs. -/
def InSync (f : OFlow σ α β) : Prop := Compatible f.nodes ∧ f.req = f.nodes.map Mem.reqArgs

/-- Calls other than `+=` -/
def NoOIadd : OOp σ α β → Prop
  | .iadd _ => False
  | _ => True

/-- Calls that only change the container. -/
def NoTrain : OOp σ α β → Prop
  | .train _ => False
  | _ => True

/-! ## Lemmas -/

theorem compat_ok {l : List (Mem σ α β)} : compat l = .ok () ↔ Compatible l := by
  unfold compat Compatible
  constructor
  · intro h
    split at h
    · cases h
    · next ha =>
      split at h
      · cases h
      · next he =>
        refine ⟨by rintro rfl; simp at he, fun m hm => ?_⟩
        simp only [Bool.not_eq_false] at ha
        have := List.all_eq_true.1 ha m hm
        simpa [Mem.anywhere] using this
  · rintro ⟨h1, h2⟩
    rw [if_neg, if_neg]
    · simpa using h1
    · simp only [Bool.not_eq_false]
      refine List.all_eq_true.2 fun m hm => ?_
      simpa [Mem.anywhere] using h2 m hm

/-- The result of an operation on the container. -/
def Good (f : OFlow σ α β) (r : Except Err Unit × OFlow σ α β) : Prop :=
  (r.1 = .ok () ∧ Consistent r.2.nodes ∧ InSync r.2) ∨ (r.1 ≠ .ok () ∧ r.2 = f)

theorem oaccept_good (f : OFlow σ α β) (l : List (Mem σ α β)) : Good f (oaccept f l) := by
  unfold oaccept
  split
  · exact .inr ⟨by simp, rfl⟩
  · next h1 =>
    split
    · exact .inr ⟨by simp, rfl⟩
    · next h2 => exact .inl ⟨rfl, checkNodes_ok h1, compat_ok.1 h2, rfl⟩

theorem osetItem_good (f : OFlow σ α β) (k : Key) (v : Rhs (Mem σ α β)) : Good f (osetItem f k v) := by
  unfold osetItem
  repeat' split
  all_goals first | exact .inr ⟨by simp, rfl⟩ | exact oaccept_good ..

theorem odelItem_good (f : OFlow σ α β) (k : Key) : Good f (odelItem f k) := by
  unfold odelItem
  repeat' split
  all_goals first | exact .inr ⟨by simp, rfl⟩ | exact oaccept_good ..

/-- The repeated checks never fail: what was accepted is accepted again. -/
theorem oaccept_recheck (f : OFlow σ α β) (l : List (Mem σ α β)) :
    thenRecheck (oaccept f l) = oaccept f l := by
  unfold oaccept
  cases h1 : checkNodes l with
  | error e => rfl
  | ok u =>
    cases h2 : compat l with
    | error e => rfl
    | ok u => simp [thenRecheck, orecheck, h1, h2]

theorem osetItem_recheck (f : OFlow σ α β) (k : Key) (v : Rhs (Mem σ α β)) :
    thenRecheck (osetItem f k v) = osetItem f k v := by
  unfold osetItem
  repeat' split
  all_goals first | rfl | exact oaccept_recheck ..

theorem omk_ok {l : List (Mem σ α β)} {f : OFlow σ α β} (h : omk l = .ok f) :
    f.nodes = l ∧ Consistent l ∧ InSync f := by
  unfold omk at h
  cases h1 : checkNodes l with
  | error e => rw [h1] at h; cases h
  | ok u =>
    cases h2 : compat l with
    | error e => rw [h1, h2] at h; cases h
    | ok u =>
      rw [h1, h2] at h
      cases h
      exact ⟨rfl, checkNodes_ok h1, compat_ok.1 h2, rfl⟩

theorem good_run {f : OFlow σ α β} {r : Except Err Unit × OFlow σ α β} (h : Good f r) :
    (isOk r.1 = true ∧ Consistent r.2.nodes ∧ InSync r.2) ∨ (isOk r.1 = false ∧ r.2 = f) := by
  rcases h with ⟨h, h'⟩ | ⟨h, h'⟩
  · exact .inl ⟨by rw [h]; rfl, h'⟩
  · refine .inr ⟨?_, h'⟩
    cases hr : r.1 with
    | error e => rfl
    | ok u => exact absurd hr h

/-- C89: a call on the container other than `+=` that is accepted leaves a flow of compatible nodes with
consistent dimensions and argument numbers; one that is rejected leaves the flow as it was. -/
theorem online_container_step (f : OFlow σ α β) (o : OOp σ α β) (ho : NoOIadd o) (ht : NoTrain o) :
    ((o.run f).1 = true ∧ Consistent (o.run f).2.nodes ∧ InSync (o.run f).2) ∨
    ((o.run f).1 = false ∧ (o.run f).2 = f) := by
  cases o with
  | set k v => exact good_run (osetItem_good f k v)
  | del k => exact good_run (odelItem_good f k)
  | append v =>
    simp only [OOp.run, oappend, osetItem_recheck]
    exact good_run (osetItem_good ..)
  | extend v =>
    simp only [OOp.run]
    cases v with
    | flow l =>
      simp only [oextend, osetItem_recheck]
      exact good_run (osetItem_good ..)
    | node n => exact .inr ⟨rfl, rfl⟩
    | other => exact .inr ⟨rfl, rfl⟩
  | insert i v =>
    simp only [OOp.run, oinsert, osetItem_recheck]
    exact good_run (osetItem_good ..)
  | pop i =>
    simp only [OOp.run]
    unfold opop
    split
    · exact .inr ⟨rfl, rfl⟩
    · exact good_run (odelItem_good ..)
  | add v =>
    simp only [OOp.run]
    cases h : oadd f v with
    | error e => exact .inr ⟨rfl, rfl⟩
    | ok g =>
      refine .inl ⟨rfl, ?_⟩
      have key : ∀ l : List (Mem σ α β), (do compat l; checkNodes l; omk l) = .ok g →
          Consistent g.nodes ∧ InSync g := by
        intro l h
        cases h1 : compat l with
        | error e => rw [h1] at h; cases h
        | ok u =>
          cases h2 : checkNodes l with
          | error e => rw [h1, h2] at h; cases h
          | ok u =>
            rw [h1, h2] at h
            obtain ⟨a, b, c⟩ := omk_ok (l := l) h
            exact ⟨a ▸ b, c⟩
      cases v with
      | flow l => exact key _ h
      | node n => exact key _ h
      | other => cases h
  | slice a b c =>
    simp only [OOp.run]
    cases h : oslice f a b c with
    | error e => exact .inr ⟨rfl, rfl⟩
    | ok g =>
      refine .inl ⟨rfl, ?_⟩
      unfold oslice at h
      split at h
      · cases h
      · next l _ =>
        cases h2 : checkNodes l with
        | error e => rw [h2] at h; cases h
        | ok u =>
          rw [h2] at h
          obtain ⟨a, b, c⟩ := omk_ok (l := l) h
          exact ⟨a ▸ b, c⟩
  | iadd v => exact ho.elim
  | train d => exact ht.elim

/-- The same call on an ordinary flow. -/
def OOp.plain : OOp σ α β → Option (Op (Mem σ α β))
  | .set k v => some (.set k v)
  | .del k => some (.del k)
  | .append v => some (.append v)
  | .extend v => some (.extend v)
  | .insert i v => some (.insert i v)
  | .pop i => some (.pop i)
  | .add v => some (.add v)
  | .slice a b c => some (.slice a b c)
  | .iadd v => some (.iadd v)
  | .train _ => none

theorem oaccept_plain {f : OFlow σ α β} {l : List (Mem σ α β)} (h : isOk (oaccept f l).1 = true) :
    accept f.nodes l = (.ok (), (oaccept f l).2.nodes) := by
  unfold oaccept at h ⊢
  unfold accept
  cases h1 : checkNodes l with
  | error e => rw [h1] at h; cases h
  | ok u =>
    rw [h1] at h
    cases h2 : compat l with
    | error e => rw [h2] at h; cases h
    | ok u => rfl

theorem orhs_plain {v : Rhs (Mem σ α β)} {l : List (Mem σ α β)} (h : orhs v = .ok l) : rhsNodes v = .ok l := by
  cases v with
  | one v => cases h
  | many vs =>
    unfold orhs at h
    unfold rhsNodes
    cases ha : allNodes vs with
    | none => simp [ha] at h
    | some l' =>
      simp only [ha] at h ⊢
      split at h
      · exact h
      · cases h
  | iterator vs =>
    unfold orhs at h
    unfold rhsNodes
    cases ha : allNodes vs with
    | none => simp [ha] at h
    | some l' =>
      simp only [ha] at h ⊢
      split at h
      · exact h
      · cases h

theorem osetItem_plain {f : OFlow σ α β} {k : Key} {v : Rhs (Mem σ α β)}
    (h : isOk (osetItem f k v).1 = true) : setItem f.nodes k v = (.ok (), (osetItem f k v).2.nodes) := by
  cases k with
  | slice a b c =>
    unfold osetItem at h ⊢
    unfold setItem
    cases h1 : orhs v with
    | error e => simp only [h1] at h; cases h
    | ok l =>
      simp only [h1, orhs_plain h1] at h ⊢
      cases h2 : setSlice f.nodes a b c l with
      | none => simp only [h2] at h; cases h
      | some l' =>
        simp only [h2] at h ⊢
        exact oaccept_plain h
  | idx i =>
    cases v with
    | one w =>
      cases w with
      | node n =>
        unfold osetItem at h ⊢
        unfold setItem
        simp only at h ⊢
        split at h
        · next hn =>
          simp only [hn, if_true]
          cases h2 : normIdx f.nodes.length i with
          | none => simp only [h2] at h; cases h
          | some k =>
            simp only [h2] at h ⊢
            exact oaccept_plain h
        · cases h
      | other => cases h
    | many vs => cases h
    | iterator vs => cases h

theorem odelItem_plain {f : OFlow σ α β} {k : Key} (h : isOk (odelItem f k).1 = true) :
    delItem f.nodes k = (.ok (), (odelItem f k).2.nodes) := by
  cases k with
  | slice a b c =>
    unfold odelItem at h ⊢
    unfold delItem
    cases h2 : delSlice f.nodes a b c with
    | none => simp only [h2] at h; cases h
    | some l' =>
      simp only [h2] at h ⊢
      exact oaccept_plain h
  | idx i =>
    unfold odelItem at h ⊢
    unfold delItem
    cases h2 : normIdx f.nodes.length i with
    | none => simp only [h2] at h; cases h
    | some k =>
      simp only [h2] at h ⊢
      exact oaccept_plain h

/-- C89: an accepted call has the effect of the same call on an ordinary flow with these nodes (which is
the effect on a Python list, see C12). -/
theorem online_container_effect (f : OFlow σ α β) (o : OOp σ α β) (p : Op (Mem σ α β))
    (hp : o.plain = some p) (h : (o.run f).1 = true) : p.run f.nodes = (true, (o.run f).2.nodes) := by
  cases o <;> cases hp
  case set k v =>
    simp only [OOp.run] at h
    simp only [OOp.run, Op.run, osetItem_plain h, isOk]
  case del k =>
    simp only [OOp.run] at h
    simp only [OOp.run, Op.run, odelItem_plain h, isOk]
  case append v =>
    simp only [OOp.run, oappend, osetItem_recheck] at h
    simp only [OOp.run, Op.run, oappend, osetItem_recheck, Flow.append, osetItem_plain h, isOk]
  case extend v =>
    cases v with
    | flow l =>
      simp only [OOp.run, oextend, osetItem_recheck] at h
      simp only [OOp.run, Op.run, oextend, osetItem_recheck, Flow.extend, osetItem_plain h, isOk]
    | node n => cases h
    | other => cases h
  case insert i v =>
    simp only [OOp.run, oinsert, osetItem_recheck] at h
    simp only [OOp.run, Op.run, oinsert, osetItem_recheck, Flow.insert, osetItem_plain h, isOk]
  case pop i =>
    simp only [OOp.run] at h
    simp only [OOp.run, Op.run]
    unfold opop at h ⊢
    unfold Flow.pop
    cases h1 : getItem f.nodes i with
    | error e => simp only [h1] at h; cases h
    | ok n =>
      simp only [h1] at h ⊢
      rw [odelItem_plain h]
      rfl
  case add v =>
    simp only [OOp.run] at h ⊢
    cases h1 : oadd f v with
    | error e => simp only [h1] at h; cases h
    | ok g =>
      simp only [Op.run]
      have key : ∀ l : List (Mem σ α β), (do compat l; checkNodes l; omk l) = .ok g →
          (do checkNodes l; mk l) = .ok g.nodes := by
        intro l h
        cases h1 : compat l with
        | error e => rw [h1] at h; cases h
        | ok u =>
          cases h2 : checkNodes l with
          | error e => rw [h1, h2] at h; cases h
          | ok u =>
            rw [h1, h2] at h
            obtain ⟨a, _⟩ := omk_ok (l := l) h
            simp only [mk, h2, a]
            rfl
      cases v with
      | flow l => rw [Flow.add, key _ h1]
      | node n => rw [Flow.add, key _ h1]
      | other => cases h1
  case slice a b c =>
    simp only [OOp.run] at h ⊢
    cases h1 : oslice f a b c with
    | error e => simp only [h1] at h; cases h
    | ok g =>
      simp only [Op.run]
      unfold oslice at h1
      unfold getItemSlice
      cases h2 : getSlice f.nodes a b c with
      | none => simp only [h2] at h1; cases h1
      | some l =>
        simp only [h2] at h1 ⊢
        cases h3 : checkNodes l with
        | error e => rw [h3] at h1; cases h1
        | ok u =>
          rw [h3] at h1
          obtain ⟨a, _⟩ := omk_ok (l := l) h1
          simp only [mk, h3, a]
          rfl
  case iadd v =>
    have key : ∀ l : List (Mem σ α β), isOk (orecheck ⟨l, f.req⟩).1 = true →
        checkNodes l = .ok () ∧ (orecheck ⟨l, f.req⟩).2.nodes = l := by
      intro l h
      unfold orecheck at h ⊢
      cases h1 : compat l with
      | error e => simp only [h1] at h; cases h
      | ok u =>
        cases h2 : checkNodes l with
        | error e => simp only [h1, h2] at h; cases h
        | ok u => simp [h1, h2]
    simp only [OOp.run] at h ⊢
    cases v with
    | flow l =>
      obtain ⟨h1, h2⟩ := key _ h
      simp only [Op.run, Flow.iadd, oiadd, h1, h2]
      rfl
    | node n =>
      obtain ⟨h1, h2⟩ := key _ h
      simp only [Op.run, Flow.iadd, oiadd, h1, h2]
      rfl
    | other => cases h

theorem oaccept_of {f : OFlow σ α β} {l : List (Mem σ α β)} (hc : Consistent l)
    (h0 : ∀ m ∈ l, Dims.out m ≠ some 0) (hm : Compatible l) : (oaccept f l).1 = .ok () := by
  have h1 : checkNodes l = .ok () := by
    have := accept_of_consistent f.nodes l hc h0
    unfold accept at this
    split at this
    · cases this
    · assumption
  unfold oaccept
  rw [h1, compat_ok.2 hm]

/-- C89: `append`, `insert` and `pop` are accepted whenever the node is allowed and the new sequence is
in order (no node with zero outputs, see C10). -/
theorem online_container_accepts (f : OFlow σ α β) :
    (∀ n : Mem σ α β, n.isOnline = true ∨ n.isTraining = false → Consistent (f.nodes ++ [n]) →
      (∀ m ∈ f.nodes ++ [n], Dims.out m ≠ some 0) → Compatible (f.nodes ++ [n]) →
      (OOp.append (.node n)).run f = (true, ⟨f.nodes ++ [n], (f.nodes ++ [n]).map Mem.reqArgs⟩)) ∧
    (∀ (i : Int) (n : Mem σ α β) (l : List (Mem σ α β)), n.isOnline = true ∨ n.isTraining = false →
      l = f.nodes.take (pyPos f.nodes.length i) ++ [n] ++ f.nodes.drop (pyPos f.nodes.length i) →
      Consistent l → (∀ m ∈ l, Dims.out m ≠ some 0) → Compatible l →
      (OOp.insert i (.node n)).run f = (true, ⟨l, l.map Mem.reqArgs⟩)) ∧
    (∀ (i : Int) (k : Nat) (l : List (Mem σ α β)), normIdx f.nodes.length i = some k → l = f.nodes.eraseIdx k →
      Consistent l → (∀ m ∈ l, Dims.out m ≠ some 0) → Compatible l →
      (OOp.pop i).run f = (true, ⟨l, l.map Mem.reqArgs⟩)) := by
  have key : ∀ l : List (Mem σ α β), Consistent l → (∀ m ∈ l, Dims.out m ≠ some 0) → Compatible l →
      oaccept f l = (.ok (), ⟨l, l.map Mem.reqArgs⟩) := by
    intro l h1 h2 h3
    have := oaccept_of (f := f) h1 h2 h3
    unfold oaccept at this ⊢
    cases h4 : checkNodes l with
    | error e => rw [h4] at this; cases this
    | ok u =>
      cases h5 : compat l with
      | error e => rw [h4, h5] at this; cases this
      | ok u => rfl
  have set : ∀ (a b : Int) (n : Mem σ α β) (l : List (Mem σ α β)), n.isOnline = true ∨ n.isTraining = false →
      setSlice f.nodes (some a) (some b) none [n] = some l → Consistent l →
      (∀ m ∈ l, Dims.out m ≠ some 0) → Compatible l →
      osetItem f (.slice (some a) (some b) none) (.many [.node n]) = (.ok (), ⟨l, l.map Mem.reqArgs⟩) := by
    intro a b n l hn hs h1 h2 h3
    have ha : n.anywhere = true := by simpa [Mem.anywhere] using hn
    simp only [osetItem, orhs, allNodes, Option.map_some, List.all_cons, ha, List.all_nil, Bool.and_self,
      if_true, hs, key l h1 h2 h3]
  refine ⟨?_, ?_, ?_⟩
  · intro n hn h1 h2 h3
    simp only [OOp.run, oappend, osetItem_recheck]
    rw [set _ _ n (f.nodes ++ [n]) hn ?_ h1 h2 h3]
    · rfl
    · have hp : pyPos f.nodes.length f.nodes.length = f.nodes.length := by unfold pyPos; split <;> omega
      rw [setSlice_step1]
      simp [hp]
  · intro i n l hn hl h1 h2 h3
    simp only [OOp.run, oinsert, osetItem_recheck]
    rw [set _ _ n l hn ?_ h1 h2 h3]
    · rfl
    · rw [setSlice_step1, hl]
      simp
  · intro i k l hk hl h1 h2 h3
    have hlt : k < f.nodes.length := by
      unfold normIdx at hk
      simp only at hk
      split at hk <;> split at hk <;> simp at hk <;> omega
    have : getItem f.nodes i = .ok f.nodes[k] := by
      simp [getItem, hk, List.getElem?_eq_getElem hlt]
    simp only [OOp.run, opop, this, odelItem, hk, ← hl, key l h1 h2 h3, isOk]

/-! ### Training keeps the flow compatible -/

/-- What training may do to a node: it keeps its class and does not reopen. -/
def SameClass (m m' : Mem σ α β) : Prop :=
  m'.isOnline = m.isOnline ∧ m'.reqArgs = m.reqArgs ∧ (m.isTraining = false → m'.isTraining = false)

theorem sameClass_refl (m : Mem σ α β) : SameClass m m := ⟨rfl, rfl, id⟩

theorem sameClass_trans {a b c : Mem σ α β} (h : SameClass a b) (h' : SameClass b c) : SameClass a c :=
  ⟨h'.1.trans h.1, h'.2.1.trans h.2.1, fun x => h'.2.2 (h.2.2 x)⟩

/-- pointwise `SameClass` -/
def SameClasses (l l' : List (Mem σ α β)) : Prop := List.Forall₂ SameClass l l'

theorem sameClasses_refl (l : List (Mem σ α β)) : SameClasses l l := by
  induction l with
  | nil => exact .nil
  | cons a l ih => exact .cons (sameClass_refl a) ih

theorem sameClasses_trans {a b c : List (Mem σ α β)} (h : SameClasses a b) (h' : SameClasses b c) :
    SameClasses a c := by
  induction h generalizing c with
  | nil => exact h'
  | cons h1 _ ih =>
    cases h' with
    | cons h2 h3 => exact .cons (sameClass_trans h1 h2) (ih h3)

theorem mem_train_same (x : Arr α) (a : List β) (m : Mem σ α β) : SameClass m (m.train x a).2 := by
  obtain ⟨h1, h2, h3⟩ := mem_train_class x a m
  exact ⟨h1, h2, fun h => h3.trans h⟩

theorem mem_execute_same (x : Arr α) (m : Mem σ α β) : SameClass m (m.execute x).2 := by
  obtain ⟨h1, h2, _, h3, _⟩ := mem_execute_class x m
  exact ⟨h1, h2, h3⟩

theorem mem_learn_same (x : Arr α) (a : Except Err (List β)) (m : Mem σ α β) :
    SameClass m (m.learn x a).2 := by
  unfold Mem.learn
  split
  · exact sameClass_refl m
  · split
    · exact mem_train_same ..
    · exact sameClass_refl m

theorem feed_same (args : Option (List (Option (List β)))) (req : List Nat) (ms : List (Mem σ α β)) :
    ∀ (i : Nat) (x : Arr α), SameClasses ms (feed args req i ms x).2 := by
  induction ms with
  | nil => intro i x; exact .nil
  | cons m r ih =>
    intro i x
    have h1 := mem_learn_same x (argsFor args i req[i]?) m
    unfold feed
    split
    · next e m' heq =>
      rw [heq] at h1
      exact .cons h1 (sameClasses_refl r)
    · next m' heq =>
      rw [heq] at h1
      have h2 := mem_execute_same x m'
      split
      · next e m'' heq2 =>
        rw [heq2] at h2
        exact .cons (sameClass_trans h1 h2) (sameClasses_refl r)
      · next y m'' heq2 =>
        rw [heq2] at h2
        exact .cons (sameClass_trans h1 h2) (ih _ _)

theorem feedAll_same (req : List Nat) (cs : List (Chunk α β)) :
    ∀ ms : List (Mem σ α β), SameClasses ms (feedAll req cs ms).2 := by
  induction cs with
  | nil => intro ms; exact sameClasses_refl ms
  | cons c cs ih =>
    intro ms
    have h1 := feed_same c.args req ms 0 c.x
    unfold feedAll
    split
    · split
      · exact sameClasses_refl ms
      · split
        · next e ms' heq => rw [heq] at h1; exact h1
        · next y ms' heq => rw [heq] at h1; exact sameClasses_trans h1 (ih _)
    · split
      · next e ms' heq => rw [heq] at h1; exact h1
      · next y ms' heq => rw [heq] at h1; exact sameClasses_trans h1 (ih _)

theorem onLast_same (f : Mem σ α β → Except Err Unit × Mem σ α β) (hf : ∀ m, SameClass m (f m).2)
    (ms : List (Mem σ α β)) : SameClasses ms (onLast f ms).2 := by
  unfold onLast
  split
  · exact sameClasses_refl ms
  · next m hm =>
    obtain ⟨l, rfl⟩ := List.getLast?_eq_some_iff.1 hm
    simp only [List.dropLast_concat]
    induction l with
    | nil => exact .cons (hf m) .nil
    | cons a l ih => exact .cons (sameClass_refl a) (ih (by simp))

theorem stop_same (m : Mem σ α β) : SameClass m m.stop.2 := mem_stop_class m

theorem train_same (req : List Nat) (d : OTrainArg α β) (ms : List (Mem σ α β)) :
    SameClasses ms (OnlineFlow.train req d ms).2 := by
  have hn : ∀ cs, SameClasses ms (trainNodes req cs ms).2 := by
    intro cs
    have h1 := feedAll_same req cs ms
    unfold trainNodes
    split
    · next e ms' heq => rw [heq] at h1; exact h1
    · next ms' heq =>
      rw [heq] at h1
      split
      · exact h1
      · refine sameClasses_trans h1 (onLast_same _ (fun m => ?_) _)
        unfold Mem.closeEarly
        split
        · exact stop_same m
        · exact sameClass_refl m
  unfold OnlineFlow.train
  split
  · exact sameClasses_refl ms
  · next cs _ =>
    have h1 := hn cs
    split
    · next e ms' heq => rw [heq] at h1; exact h1
    · next ms' heq =>
      rw [heq] at h1
      refine sameClasses_trans h1 (onLast_same _ (fun m => ?_) _)
      have h2 := stop_same m
      unfold Mem.closePlain
      split
      · exact sameClass_refl m
      · split
        all_goals
          next heq2 => rw [heq2] at h2; exact h2

theorem same_compatible {l l' : List (Mem σ α β)} (h : SameClasses l l') :
    (Compatible l → Compatible l') ∧ l'.map Mem.reqArgs = l.map Mem.reqArgs := by
  have hall : ∀ {l l' : List (Mem σ α β)}, SameClasses l l' →
      (∀ m ∈ l.dropLast, m.isOnline = true ∨ m.isTraining = false) →
      ∀ m ∈ l'.dropLast, m.isOnline = true ∨ m.isTraining = false := by
    intro l l' h
    induction h with
    | nil => intro _ m hm; cases hm
    | @cons a b l l' h1 h2 ih =>
      intro h0 m hm
      cases h2 with
      | nil => cases hm
      | @cons c d l l' h3 h4 =>
        rw [List.dropLast_cons_cons] at h0 hm
        rcases List.mem_cons.1 hm with rfl | hm
        · rcases h0 a (by simp) with h | h
          · exact .inl (h1.1.trans h)
          · exact .inr (h1.2.2 h)
        · exact ih (fun m hm => h0 m (List.mem_cons_of_mem _ hm)) m hm
  refine ⟨fun hc => ⟨?_, hall h hc.2⟩, ?_⟩
  · intro h0
    subst h0
    cases h
    exact hc.1 rfl
  · induction h with
    | nil => rfl
    | cons h1 _ ih => simp [h1.2.1, ih]

/-- C89: over every history of calls without `+=`, training included and whether or not the calls were
rejected, a flow that was in order has compatible nodes and knows the number of arguments each of them
needs. -/
theorem online_flow_in_sync_partial (f : OFlow σ α β) (h : InSync f) (ops : List (OOp σ α β))
    (ho : ∀ o ∈ ops, NoOIadd o) : InSync (orunOps f ops) := by
  unfold orunOps
  induction ops generalizing f with
  | nil => exact h
  | cons o ops ih =>
    refine ih _ ?_ fun o' h' => ho o' (List.mem_cons_of_mem _ h')
    by_cases ht : NoTrain o
    · rcases online_container_step f o (ho o (by simp)) ht with ⟨_, _, h'⟩ | ⟨_, h'⟩
      · exact h'
      · simp only; rw [h']; exact h
    · cases o with
      | train d =>
        obtain ⟨h1, h2⟩ := same_compatible (train_same f.req d f.nodes)
        exact ⟨h1 h.1, by simp only [OOp.run]; rw [h2, h.2]⟩
      | _ => exact absurd trivial ht

/-- C89: over every history of container calls without `+=`, the dimensions stay consistent. -/
theorem online_flow_consistent_partial (f : OFlow σ α β) (h : Consistent f.nodes) (ops : List (OOp σ α β))
    (ho : ∀ o ∈ ops, NoOIadd o ∧ NoTrain o) : Consistent (orunOps f ops).nodes := by
  unfold orunOps
  induction ops generalizing f with
  | nil => exact h
  | cons o ops ih =>
    refine ih _ ?_ fun o' h' => ho o' (List.mem_cons_of_mem _ h')
    obtain ⟨h1, h2⟩ := ho o (by simp)
    rcases online_container_step f o h1 h2 with ⟨_, h', _⟩ | ⟨_, h'⟩
    · exact h'
    · simp only; rw [h']; exact h

/-- C89: the constructor accepts exactly compatible sequences with matching dimensions. -/
theorem online_construct (l : List (Mem σ α β)) (f : OFlow σ α β) (h : omk l = .ok f) :
    f.nodes = l ∧ Consistent l ∧ InSync f := omk_ok h

/-- C89: incompatible nodes are rejected. -/
theorem online_construct_rejects (l : List (Mem σ α β)) (h : ¬ Compatible l) : isOk (omk l) = false := by
  cases hr : omk l with
  | error e => rfl
  | ok f =>
    obtain ⟨h1, _, h2, _⟩ := omk_ok hr
    rw [h1] at h2
    exact absurd h2 h

/-- C89 is violated by `+=`: a rejected `+=` leaves a node in the flow that must not be there, without a
number of arguments for it. -/
theorem online_iadd_violation :
    ∃ (f : OFlow (List (Nat × List (List Nat))) Nat Unit), omk [memP] = .ok f ∧ Good f (oiadd f .other) ∧
      isOk (oiadd f (.node mem1)).1 = false ∧ ¬ InSync (oiadd f (.node mem1)).2 := by
  refine ⟨⟨[memP], [0]⟩, rfl, .inr ⟨by simp [oiadd], rfl⟩, by decide +kernel, ?_⟩
  intro h
  have : (oiadd (⟨[memP], [0]⟩ : OFlow _ Nat Unit) (.node mem1)).2.nodes.dropLast = [memP] := rfl
  have h2 := h.1.2 memP (by rw [this]; simp)
  revert h2
  decide +kernel

/-- The hypotheses hold for a flow of two online nodes, changed and trained. -/
example : let f : OFlow (List (Nat × List (List Nat))) Nat Unit := ⟨[mem1, mem1], [0, 0]⟩
    InSync f ∧ ∀ o ∈ ([.train (.array (ox [[1], [2]])), .append (.node memP), .pop 0,
      .insert 0 (.node mem1)] : List (OOp (List (Nat × List (List Nat))) Nat Unit)), NoOIadd o := by
  refine ⟨⟨⟨by simp, ?_⟩, rfl⟩, ?_⟩
  · intro m hm
    simp only [List.dropLast_cons_cons, List.dropLast_singleton, List.mem_singleton] at hm
    subst hm
    exact .inl rfl
  · intro o ho
    simp only [List.mem_cons, List.not_mem_nil, or_false] at ho
    rcases ho with rfl | rfl | rfl | rfl <;> trivial

end Mdp.Online
