import Verif.Parallel.HinetNest

/-!
# `ParallelCloneBiLayer` (`bimdp/parallel/parallelbihinet.py`)

C150. The layer is either one node that stands for `n` clones or `n` copies of it. Messages are those of `Verif.Bi.Layer`;
here only the nodes' states matter.
-/

namespace PHinet

variable {S X : Type}

/-- The nodes of the layer (bilayer.py:52-60: `self.node is None` tells that copies are used). -/
inductive CS (S : Type) where
  | single (s : S)
  | copies (l : List S)

/-- Exceptions: those of the nodes; `attr` is the `AttributeError` of `is_bi_training`, `index` an `IndexError`. -/
inductive CErr where
  | node (e : Err)
  | attr
  | index

/-- An exception of a node goes through. -/
def liftE {A : Type} : Except Err A → Except CErr A
  | .ok a => .ok a
  | .error e => .error (.node e)

/-- parallelbihinet.py:18-43 `_set_use_copies`. `training` is `is_training()` of the layer. A `copy` of a node is a node
with the same state. No class of the hierarchy of `CloneBiLayer` has `is_bi_training`. -/
def setCopies (N : PN S X) (n : Nat) (training : Bool) (use : Bool) : CS S → Except CErr (CS S)
  | .single s => if use then .ok (.copies (List.replicate n s)) else .ok (.single s)
  | .copies l =>
    if use then .ok (.copies l)
    else if training then
      match l with
      | [] => .error .index
      | s :: r =>
        match r.foldlM N.join s with
        | .error e => .error (.node e)
        | .ok s' => .ok (.single s')
    else .error .attr

/-- bilayer.py:155-185 `_train` without messages: `node.train` for one node after the other. -/
def copiesTrain (part : Nat → X → X) (N : PN S X) : Nat → List S → X → Except Err (List S)
  | i, s :: l, x =>
    match N.train s (part i x) with
    | .error e => .error e
    | .ok s' =>
      match copiesTrain part N (i + 1) l x with
      | .error e => .error e
      | .ok l' => .ok (s' :: l')
  | _, [], _ => .ok []

/-- The same for one node that is trained `n` times. -/
def singleTrain (part : Nat → X → X) (N : PN S X) : Nat → Nat → S → X → Except Err S
  | _, 0, s, _ => .ok s
  | i, n + 1, s, x =>
    match N.train s (part i x) with
    | .error e => .error e
    | .ok s' => singleTrain part N (i + 1) n s' x

def csTrain (part : Nat → X → X) (N : PN S X) (n : Nat) : CS S → X → Except CErr (CS S)
  | .single s, x => (liftE (singleTrain part N 0 n s x)).map CS.single
  | .copies l, x => (liftE (copiesTrain part N 0 l x)).map CS.copies

/-- parallelbihinet.py:45-59 `_fork`. The first node is forked in any case (once more, if there are copies). -/
def csFork (N : PN S X) : CS S → Except CErr (CS S)
  | .single s => (liftE (N.fork s)).map CS.single
  | .copies l =>
    match l with
    | [] => .error .index
    | s :: _ =>
      match N.fork s with
      | .error e => .error (.node e)
      | .ok _ => (liftE (l.mapM N.fork)).map CS.copies

/-- parallelbihinet.py:61-67: the loop of `_join` over copies. -/
def copiesJoin (N : PN S X) : List S → List S → Except CErr (List S)
  | s :: l, f :: fs =>
    match N.join s f with
    | .error e => .error (.node e)
    | .ok s' =>
      match copiesJoin N l fs with
      | .error e => .error e
      | .ok l' => .ok (s' :: l')
  | [], _ => .ok []
  | _ :: _, [] => .error .index

/-- parallelbihinet.py:61-67 `_join`. The mode is that of the layer joined into. A fork in the other mode: its `nodes` are
all its one node; or its `node` is `None`, which has no attributes (its `_train_phase_started`, parallelnodes.py:79). -/
def csJoin (N : PN S X) (n : Nat) : CS S → CS S → Except CErr (CS S)
  | .copies l, .copies fs => (copiesJoin N l fs).map CS.copies
  | .copies l, .single f => (copiesJoin N l (List.replicate n f)).map CS.copies
  | .single s, .single f => (liftE (N.join s f)).map CS.single
  | .single _, .copies _ => .error .attr

/-! ### Specification -/

/-- Training of the layer with chunks. -/
inductive CTrained (part : Nat → X → X) (N : PN S X) (n : Nat) : CS S → List X → CS S → Prop where
  | nil (c) : CTrained part N n c [] c
  | cons {c c1 c' x xs} : csTrain part N n c x = .ok c1 → CTrained part N n c1 xs c' → CTrained part N n c (x :: xs) c'

/-! ### Lemmas -/

theorem copiesTrain_iff (part : Nat → X → X) (N : PN S X) (x : X) : ∀ (l : List S) (i : Nat) (l' : List S),
    copiesTrain part N i l x = .ok l' ↔ l'.length = l.length ∧
      ∀ k (h : k < l.length) (h' : k < l'.length), N.train l[k] (part (i + k) x) = .ok l'[k] := by
  intro l
  induction l with
  | nil =>
    intro i l'
    simp only [copiesTrain, Except.ok.injEq, List.length_nil, Nat.not_lt_zero, IsEmpty.forall_iff, implies_true, and_true]
    constructor
    · rintro rfl; rfl
    · intro h; exact (List.length_eq_zero_iff.1 h).symm
  | cons s l ih =>
    intro i l'
    simp only [copiesTrain]
    constructor
    · intro h
      cases h1 : N.train s (part i x) with
      | error e => rw [h1] at h; cases h
      | ok s' =>
        rw [h1] at h
        simp only at h
        cases h2 : copiesTrain part N (i + 1) l x with
        | error e => rw [h2] at h; cases h
        | ok r =>
          rw [h2] at h
          cases h
          obtain ⟨h3, h4⟩ := (ih (i + 1) r).1 h2
          refine ⟨by simp [h3], ?_⟩
          intro k hk hk'
          cases k with
          | zero => simpa using h1
          | succ k =>
            have := h4 k (by simpa using hk) (by simpa using hk')
            rw [show i + (k + 1) = i + 1 + k by omega]
            simpa using this
    · rintro ⟨h1, h2⟩
      cases l' with
      | nil => simp at h1
      | cons s' r =>
        have h3 := h2 0 (by simp) (by simp)
        simp only [List.getElem_cons_zero, Nat.add_zero] at h3
        have h4 : copiesTrain part N (i + 1) l x = .ok r := by
          refine (ih (i + 1) r).2 ⟨by simpa using h1, ?_⟩
          intro k hk hk'
          have := h2 (k + 1) (by simpa using hk) (by simpa using hk')
          rw [show i + 1 + k = i + (k + 1) by omega]
          simpa using this
        rw [h3]
        simp only
        rw [h4]

theorem copies_trained (part : Nat → X → X) (N : PN S X) (n : Nat) : ∀ (xs : List X) (l : List S) (c : CS S),
    CTrained part N n (.copies l) xs c ↔ ∃ l' : List S, c = .copies l' ∧ l'.length = l.length ∧
      ∀ k (h : k < l.length) (h' : k < l'.length), Trained N l[k] (xs.map (part k)) l'[k] := by
  intro xs
  induction xs with
  | nil =>
    intro l c
    constructor
    · intro h
      cases h
      refine ⟨l, rfl, rfl, ?_⟩
      intro k _ _
      exact .nil _
    · rintro ⟨l', rfl, h1, h2⟩
      have : l' = l := by
        apply List.ext_getElem h1
        intro k hk hk'
        exact trained_nil.1 (h2 k hk' hk)
      rw [this]
      exact .nil _
  | cons x xs ih =>
    intro l c
    constructor
    · intro h
      cases h with
      | cons h1 h2 =>
        simp only [csTrain] at h1
        cases h3 : copiesTrain part N 0 l x with
        | error e => rw [h3] at h1; cases h1
        | ok l1 =>
          rw [h3] at h1
          cases h1
          obtain ⟨l', rfl, h4, h5⟩ := (ih l1 c).1 h2
          obtain ⟨h6, h7⟩ := (copiesTrain_iff part N x l 0 l1).1 h3
          refine ⟨l', rfl, by omega, ?_⟩
          intro k hk hk'
          have h8 := h7 k hk (by omega)
          rw [Nat.zero_add] at h8
          exact .cons h8 (h5 k (by omega) hk')
    · rintro ⟨l', rfl, h1, h2⟩
      have h3 : ∀ k (h : k < l.length), ∃ s1, N.train l[k] (part k x) = .ok s1 ∧
          Trained N s1 (xs.map (part k)) (l'[k]'(by omega)) := by
        intro k hk
        have := h2 k hk (by omega)
        rw [List.map_cons, trained_cons] at this
        exact this
      choose g h4 h5 using h3
      let l1 : List S := List.ofFn fun i : Fin l.length => g i.1 i.2
      have hl1 : copiesTrain part N 0 l x = .ok l1 := by
        refine (copiesTrain_iff part N x l 0 l1).2 ⟨by simp [l1], ?_⟩
        intro k hk hk'
        rw [Nat.zero_add, h4 k hk]
        simp [l1]
      refine .cons (c1 := .copies l1) (by simp only [csTrain]; rw [hl1]; rfl) ((ih l1 _).2 ⟨l', rfl, by simp [l1, h1], ?_⟩)
      intro k hk hk'
      have := h5 k (by simpa [l1] using hk)
      simpa [l1] using this

theorem single_chunks {N : PN S X} (part : Nat → X → X) (x : X) : ∀ (n i : Nat) (s s' : S),
    singleTrain part N i n s x = .ok s' ↔ Trained N s ((List.range' i n).map fun k => part k x) s' := by
  intro n
  induction n with
  | zero =>
    intro i s s'
    simp only [singleTrain, List.range'_zero, List.map_nil, trained_nil, Except.ok.injEq]
    exact eq_comm
  | succ n ih =>
    intro i s s'
    simp only [singleTrain, List.range'_succ, List.map_cons, trained_cons]
    cases h : N.train s (part i x) with
    | error e => simp
    | ok s1 =>
      simp only [Except.ok.injEq, exists_eq_left']
      exact ih (i + 1) s1 s'

theorem single_trained {N : PN S X} (part : Nat → X → X) (n : Nat) : ∀ (xs : List X) (s : S) (c : CS S),
    CTrained part N n (.single s) xs c ↔ ∃ s', c = .single s' ∧ Trained N s (cloneChunks part n xs) s' := by
  intro xs
  induction xs with
  | nil =>
    intro s c
    constructor
    · intro h; cases h; exact ⟨s, rfl, .nil _⟩
    · rintro ⟨s', rfl, h⟩
      rw [show cloneChunks part n ([] : List X) = [] from rfl, trained_nil] at h
      rw [h]
      exact .nil _
  | cons x xs ih =>
    intro s c
    have e : cloneChunks part n (x :: xs) = ((List.range' 0 n).map fun k => part k x) ++ cloneChunks part n xs := by
      simp [cloneChunks, List.range_eq_range']
    rw [e]
    constructor
    · intro h
      cases h with
      | cons h1 h2 =>
        simp only [csTrain] at h1
        cases h3 : singleTrain part N 0 n s x with
        | error e => rw [h3] at h1; cases h1
        | ok s1 =>
          rw [h3] at h1
          cases h1
          obtain ⟨s', rfl, h4⟩ := (ih s1 c).1 h2
          exact ⟨s', rfl, trained_append.2 ⟨s1, (single_chunks part x n 0 s s1).1 h3, h4⟩⟩
    · rintro ⟨s', rfl, h⟩
      obtain ⟨s1, h1, h2⟩ := trained_append.1 h
      refine .cons (c1 := .single s1) ?_ ((ih s1 _).2 ⟨s', rfl, h2⟩)
      simp only [csTrain]
      rw [(single_chunks part x n 0 s s1).2 h1]
      rfl

/-! ### C150 -/

/-- **C150**: copies made before any training (when a copy of the node is as good as a fork of it), trained, and then merged
by switching back to a single node: the single node is trained with the parts of all clones, one clone after the other. -/
theorem switch_back_merges {N : PN S X} {I : S → Prop} (L : Lawful N I) (part : Nat → X → X) {s : S} (hi : I s)
    (ht : N.training s = true) (hf : N.fork s = .ok s) {n : Nat} (hn : 0 < n) {xs : List X} (hx : xs ≠ []) {c : CS S}
    (hc : ∃ c0 : CS S, setCopies N n true true (.single s) = .ok c0 ∧ CTrained part N n c0 xs c) (s' : S) :
    setCopies N n true false c = .ok (.single s') ↔
      Trained N s ((List.range n).flatMap fun k => xs.map (part k)) s' := by
  obtain ⟨c0, h0, hc⟩ := hc
  simp only [setCopies, if_true, Except.ok.injEq] at h0
  subst h0
  obtain ⟨l', rfl, h1, h2⟩ := (copies_trained part N n xs _ _).1 hc
  rw [List.length_replicate] at h1
  have hall : ∀ k (h : k < l'.length), Trained N s (xs.map (part k)) l'[k] := by
    intro k hk
    have := h2 k (by simp; omega) hk
    simpa using this
  cases l' with
  | nil => simp at h1; omega
  | cons a r =>
    have ha := hall 0 (by simp)
    simp only [List.getElem_cons_zero] at ha
    have hr : ∀ k (h : k < r.length), Trained N s (xs.map (part (k + 1))) r[k] := by
      intro k hk
      have := hall (k + 1) (by simp; omega)
      simpa using this
    obtain ⟨m, rfl⟩ : ∃ m, n = m + 1 := ⟨n - 1, by omega⟩
    have hrm : r.length = m := by simpa using h1
    have key : ∀ (r : List S) (i : Nat) (prior : List X) (b : S),
        (∀ k (h : k < r.length), Trained N s (xs.map (part (k + i))) r[k]) → Trained N s prior b →
        (r.foldlM N.join b = .ok s' ↔
          Trained N b ((List.range' i r.length).flatMap fun k => xs.map (part k)) s') := by
      intro r
      induction r with
      | nil =>
        intro i prior b _ _
        simp only [List.length_nil, List.range'_zero, List.flatMap_nil, trained_nil, List.foldlM_nil]
        constructor
        · intro h; cases h; rfl
        · rintro rfl; rfl
      | cons f r ih =>
        intro i prior b hr hb
        have hf1 := hr 0 (by simp)
        simp only [List.getElem_cons_zero, Nat.zero_add] at hf1
        have hne : xs.map (part i) ≠ [] := by simpa using hx
        have hl := fun t => L.trains hi ht hf hb hne t
        simp only [List.length_cons, List.range'_succ, List.flatMap_cons, trained_append, List.foldlM_cons]
        have hr' : ∀ k (h : k < r.length), Trained N s (xs.map (part (k + (i + 1)))) r[k] := by
          intro k hk
          have := hr (k + 1) (by simp; omega)
          rw [show k + (i + 1) = k + 1 + i by omega]
          simpa using this
        constructor
        · intro h
          cases h3 : N.join b f with
          | error e => rw [h3] at h; cases h
          | ok b1 =>
            rw [h3] at h
            have h4 := (hl b1).2 ⟨f, hf1, h3⟩
            exact ⟨b1, h4, (ih (i + 1) (prior ++ xs.map (part i)) b1 hr' (trained_append.2 ⟨b, hb, h4⟩)).1 h⟩
        · rintro ⟨b1, h4, h5⟩
          obtain ⟨f', h6, h7⟩ := (hl b1).1 h4
          have : f' = f := by
            have huniq : ∀ (xs : List X) (a t u : S), Trained N a xs t → Trained N a xs u → t = u := by
              intro xs
              induction xs with
              | nil => intro a t u h h'; rw [trained_nil.1 h, trained_nil.1 h']
              | cons x xs ih =>
                intro a t u h h'
                obtain ⟨a1, g1, g2⟩ := trained_cons.1 h
                obtain ⟨a2, g3, g4⟩ := trained_cons.1 h'
                rw [g1] at g3
                cases g3
                exact ih a1 t u g2 g4
            exact huniq _ _ _ _ h6 hf1
          subst this
          rw [h7]
          exact (ih (i + 1) (prior ++ xs.map (part i)) b1 hr' (trained_append.2 ⟨b, hb, h4⟩)).2 h5
    have hk := key r 1 _ a hr ha
    rw [hrm] at hk
    have hrange : List.range (m + 1) = 0 :: List.range' 1 m := by
      rw [List.range_eq_range', List.range'_succ]
    have hset : setCopies N (m + 1) true false (.copies (a :: r)) = .ok (.single s') ↔ r.foldlM N.join a = .ok s' := by
      simp only [setCopies, Bool.false_eq_true, if_false, if_true]
      cases r.foldlM N.join a with
      | error e => simp
      | ok t => simp
    rw [hset, hk, hrange, List.flatMap_cons, trained_append]
    constructor
    · intro h; exact ⟨a, ha, h⟩
    · rintro ⟨a', h1, h2⟩
      have huniq : ∀ (xs : List X) (a t u : S), Trained N a xs t → Trained N a xs u → t = u := by
        intro xs
        induction xs with
        | nil => intro a t u h h'; rw [trained_nil.1 h, trained_nil.1 h']
        | cons x xs ih =>
          intro a t u h h'
          obtain ⟨a1, g1, g2⟩ := trained_cons.1 h
          obtain ⟨a2, g3, g4⟩ := trained_cons.1 h'
          rw [g1] at g3
          cases g3
          exact ih a1 t u g2 g4
      rw [huniq _ _ _ _ ha h1]
      exact h2

/-- **C150**: once the layer is not in training, the switch back to a single node raises an `AttributeError`. -/
theorem switch_back_after_training_false (N : PN S X) (n : Nat) (l : List S) :
    setCopies N n false false (.copies l) = .error .attr := rfl

/-- **C150**: forking a layer that uses copies and joining the trained fork: every copy is trained with its part of the
job. -/
theorem copies_fork_join {N : PN S X} {I : S → Prop} (L : Lawful N I) (part : Nat → X → X) (n : Nat) {l fs : List S}
    (hi : ∀ s ∈ l, I s) (ht : ∀ s ∈ l, N.training s = true) (hf : csFork N (.copies l) = .ok (.copies fs)) {xs : List X}
    (hx : xs ≠ []) (c : CS S) :
    CTrained part N n (.copies l) xs c ↔ ∃ f', CTrained part N n (.copies fs) xs f' ∧ csJoin N n (.copies l) f' = .ok c := by
  have hfs : fs.length = l.length ∧ ∀ k (h : k < l.length) (h' : k < fs.length), N.fork l[k] = .ok fs[k] := by
    have hmap : ∀ (l fs : List S), l.mapM N.fork = .ok fs →
        fs.length = l.length ∧ ∀ k (h : k < l.length) (h' : k < fs.length), N.fork l[k] = .ok fs[k] := by
      intro l
      induction l with
      | nil =>
        intro fs h
        cases h
        simp
      | cons s l ih =>
        intro fs h
        rw [List.mapM_cons] at h
        cases h1 : N.fork s with
        | error e => rw [h1] at h; cases h
        | ok f =>
          rw [h1] at h
          cases h2 : l.mapM N.fork with
          | error e => rw [h2] at h; cases h
          | ok r =>
            rw [h2] at h
            cases h
            obtain ⟨h3, h4⟩ := ih r h2
            refine ⟨by simp [h3], ?_⟩
            intro k hk hk'
            cases k with
            | zero => simpa using h1
            | succ k => simpa using h4 k (by simpa using hk) (by simpa using hk')
    cases l with
    | nil => cases hf
    | cons s l =>
      simp only [csFork] at hf
      cases h1 : N.fork s with
      | error e => rw [h1] at hf; cases hf
      | ok f =>
        rw [h1] at hf
        simp only at hf
        cases h2 : (s :: l).mapM N.fork with
        | error e => rw [h2] at hf; cases hf
        | ok r =>
          rw [h2] at hf
          cases hf
          exact hmap _ _ h2
  obtain ⟨hlen, hfs⟩ := hfs
  have hjoin : ∀ (l gs out : List S), gs.length = l.length → (copiesJoin N l gs = .ok out ↔ out.length = l.length ∧
      ∀ k (h : k < l.length) (h' : k < gs.length) (h'' : k < out.length), N.join l[k] gs[k] = .ok out[k]) := by
    intro l
    induction l with
    | nil =>
      intro gs out _
      simp only [copiesJoin, Except.ok.injEq, List.length_nil, Nat.not_lt_zero, IsEmpty.forall_iff, implies_true,
        and_true]
      constructor
      · rintro rfl; rfl
      · intro h; exact (List.length_eq_zero_iff.1 h).symm
    | cons s l ih =>
      intro gs out hl
      cases gs with
      | nil => simp at hl
      | cons g gs =>
        simp only [copiesJoin]
        constructor
        · intro h
          cases h1 : N.join s g with
          | error e => rw [h1] at h; cases h
          | ok s' =>
            rw [h1] at h
            simp only at h
            cases h2 : copiesJoin N l gs with
            | error e => rw [h2] at h; cases h
            | ok r =>
              rw [h2] at h
              cases h
              obtain ⟨h3, h4⟩ := (ih gs r (by simpa using hl)).1 h2
              refine ⟨by simp [h3], ?_⟩
              intro k hk hk' hk''
              cases k with
              | zero => simpa using h1
              | succ k => simpa using h4 k (by simpa using hk) (by simpa using hk') (by simpa using hk'')
        · rintro ⟨h1, h2⟩
          cases out with
          | nil => simp at h1
          | cons o out =>
            have h3 := h2 0 (by simp) (by simp) (by simp)
            simp only [List.getElem_cons_zero] at h3
            have h4 := (ih gs out (by simpa using hl)).2 ⟨by simpa using h1, fun k hk hk' hk'' =>
              h2 (k + 1) (Nat.succ_lt_succ hk) (Nat.succ_lt_succ hk') (Nat.succ_lt_succ hk'')⟩
            rw [h3]
            simp only
            rw [h4]
  have hl : ∀ k (h : k < l.length) (h' : k < fs.length) t, Trained N l[k] (xs.map (part k)) t ↔
      ∃ f', Trained N fs[k] (xs.map (part k)) f' ∧ N.join l[k] f' = .ok t := by
    intro k hk hk' t
    exact L.trains (hi _ (List.getElem_mem hk)) (ht _ (List.getElem_mem hk)) (hfs k hk hk') (.nil _) (by simpa using hx) t
  rw [copies_trained]
  constructor
  · rintro ⟨l', rfl, h1, h2⟩
    have h3 : ∀ k (h : k < l.length), ∃ f', Trained N (fs[k]'(by omega)) (xs.map (part k)) f' ∧
        N.join l[k] f' = .ok (l'[k]'(by omega)) :=
      fun k hk => (hl k hk (by omega) _).1 (h2 k hk (by omega))
    choose g h4 h5 using h3
    let gs : List S := List.ofFn fun i : Fin l.length => g i.1 i.2
    refine ⟨.copies gs, (copies_trained part N n xs fs _).2 ⟨gs, rfl, by simp [gs, hlen], ?_⟩, ?_⟩
    · intro k hk hk'
      have := h4 k (by omega)
      simpa [gs] using this
    · simp only [csJoin]
      rw [(hjoin l gs l' (by simp [gs])).2 ⟨h1, fun k hk hk' hk'' => by simpa [gs] using h5 k hk⟩]
      rfl
  · rintro ⟨f', h1, h2⟩
    obtain ⟨gs, rfl, h3, h4⟩ := (copies_trained part N n xs fs f').1 h1
    simp only [csJoin] at h2
    cases h5 : copiesJoin N l gs with
    | error e => rw [h5] at h2; cases h2
    | ok l' =>
      rw [h5] at h2
      cases h2
      obtain ⟨h6, h7⟩ := (hjoin l gs l' (by omega)).1 h5
      refine ⟨l', rfl, h6, ?_⟩
      intro k hk hk'
      exact (hl k hk (by omega) _).2 ⟨gs[k], h4 k (by omega) (by omega), h7 k hk (by omega) hk'⟩

open Mdp.Join Mdp.Cov in
/-- **C150 is false** if the node was trained before the switch to copies: switching to `n` copies and back, with nothing in
between, multiplies everything the node had gathered by `n`. -/
theorem switch_counts_prior_false (F : Type) [Field F] (d : Nat) (a : Mat F d d × Row F d) (t : Nat) (n : Nat)
    (hn : 0 < n) : ∃ c0, setCopies (pcaNode F d) n true true (.single (some ⟨some a, t, false⟩)) = .ok c0 ∧
      setCopies (pcaNode F d) n true false c0 = .ok (.single (some ⟨some (n • a.1, n • a.2), n * t, false⟩)) := by
  refine ⟨_, rfl, ?_⟩
  obtain ⟨m, rfl⟩ : ∃ m, n = m + 1 := ⟨n - 1, by omega⟩
  simp only [setCopies, List.replicate_succ, Bool.false_eq_true, if_false, if_true]
  have : ∀ (m k : Nat), (List.replicate m (some (⟨some a, t, false⟩ : CovSt F d))).foldlM (pcaNode F d).join
      (some ⟨some (k • a.1, k • a.2), k * t, false⟩) = .ok (some ⟨some ((k + m) • a.1, (k + m) • a.2), (k + m) * t, false⟩) := by
    intro m
    induction m with
    | zero => intro k; rfl
    | succ m ih =>
      intro k
      rw [List.replicate_succ, List.foldlM_cons]
      have h1 : (pcaNode F d).join (some ⟨some (k • a.1, k • a.2), k * t, false⟩) (some ⟨some a, t, false⟩) =
          .ok (some ⟨some ((k + 1) • a.1, (k + 1) • a.2), (k + 1) * t, false⟩) := by
        simp only [pcaNode, pcaJoin, joinCov]
        rw [succ_nsmul, succ_nsmul, Nat.succ_mul]
      rw [h1]
      have := ih (k + 1)
      rw [show k + (m + 1) = k + 1 + m by omega]
      exact this
  have h := this m 1
  rw [one_nsmul, one_nsmul, Nat.one_mul, Nat.add_comm 1 m] at h
  rw [h]

/-- The hypotheses of `switch_back_merges` are met by a new `PCANode`. -/
example : ∃ c c0 : CS (Option (Mdp.Cov.CovSt ℚ 1)), setCopies (pcaNode ℚ 1) 2 true true (.single (some (Mdp.Join.pcaFork ℚ 1))) = .ok c0 ∧
    CTrained colOf (pcaNode ℚ 1) 2 c0 [[![1], ![2]], [![3], ![4]]] c ∧
    (pcaNode ℚ 1).fork (some (Mdp.Join.pcaFork ℚ 1)) = .ok (some (Mdp.Join.pcaFork ℚ 1)) :=
  ⟨_, _, rfl, .cons rfl (.cons rfl (.nil _)), rfl⟩

theorem copiesJoin_ok (N : PN S X) : ∀ (l fs l' : List S), copiesJoin N l fs = .ok l' ↔
    l'.length = l.length ∧ l.length ≤ fs.length ∧
      ∀ k (h : k < l.length) (h' : k < l'.length) (h'' : k < fs.length), N.join l[k] fs[k] = .ok l'[k] := by
  intro l
  induction l with
  | nil =>
    intro fs l'
    simp only [copiesJoin, List.length_nil, List.length_eq_zero_iff]
    constructor
    · intro h; cases h; exact ⟨rfl, Nat.zero_le _, fun k h => absurd h (Nat.not_lt_zero k)⟩
    · rintro ⟨rfl, -⟩; rfl
  | cons s l ih =>
    intro fs l'
    cases fs with
    | nil =>
      simp only [copiesJoin, List.length_cons, List.length_nil]
      constructor
      · intro h; cases h
      · rintro ⟨-, h, -⟩; omega
    | cons f fs =>
      simp only [copiesJoin]
      cases hj : N.join s f with
      | error e =>
        simp only
        constructor
        · intro h; cases h
        · rintro ⟨h1, -, h2⟩
          have := h2 0 (by simp) (by rw [h1]; simp) (by simp)
          simp only [List.getElem_cons_zero] at this
          rw [hj] at this; cases this
      | ok s' =>
        simp only
        constructor
        · intro h
          cases hr : copiesJoin N l fs with
          | error e => rw [hr] at h; cases h
          | ok r =>
            rw [hr] at h
            cases h
            obtain ⟨h1, h2, h3⟩ := (ih fs r).1 hr
            refine ⟨by simp [h1], by simpa using h2, fun k h h' h'' => ?_⟩
            cases k with
            | zero => exact hj
            | succ k => exact h3 k (by simpa using h) (by simpa using h') (by simpa using h'')
        · rintro ⟨h1, h2, h3⟩
          cases l' with
          | nil => simp at h1
          | cons t r =>
            have h4 := h3 0 (by simp) (by simp) (by simp)
            simp only [List.getElem_cons_zero] at h4
            rw [hj] at h4
            cases h4
            have h5 : copiesJoin N l fs = .ok r := (ih fs r).2 ⟨by simpa using h1, by simpa using h2, fun k h h' h'' => by
              have := h3 (k + 1) (by simpa using h) (by simpa using h') (by simpa using h'')
              simpa using this⟩
            rw [h5]

/-- **C150**: joining a fork made in the other mode. A layer of copies joins the one node of the fork into each of its copies,
so what the fork gathered is counted once for each copy; a layer of one node refuses the copies of a fork. -/
theorem join_other_mode (N : PN S X) (n : Nat) (l l' : List S) (hl : l.length = n) (s f : S) (fs : List S) :
    (csJoin N n (.copies l) (.single f) = .ok (.copies l') ↔
      l'.length = l.length ∧ ∀ k (h : k < l.length) (h' : k < l'.length), N.join l[k] f = .ok l'[k]) ∧
    (∃ e, csJoin N n (.single s) (.copies fs) = .error e) := by
  refine ⟨?_, _, rfl⟩
  have e : csJoin N n (.copies l) (.single f) = .ok (.copies l') ↔ copiesJoin N l (List.replicate n f) = .ok l' := by
    simp only [csJoin]
    cases copiesJoin N l (List.replicate n f) with
    | error e =>
      constructor <;> (intro h; cases h)
    | ok r =>
      constructor <;> (intro h; cases h; rfl)
  rw [e, copiesJoin_ok]
  subst hl
  simp only [List.length_replicate, le_refl, true_and, List.getElem_replicate]
  exact and_congr_right fun _ => ⟨fun h k h1 h2 => h k h1 h2 h1, fun h k h1 h2 _ => h k h1 h2⟩

/-- Two copies of a new `PCANode` and a fork of one node that has seen a sample. -/
example : ∃ l', csJoin (pcaNode ℚ 1) 2 (.copies [some (Mdp.Join.pcaFork ℚ 1), some (Mdp.Join.pcaFork ℚ 1)])
    (.single (some (Mdp.Join.pcaFork ℚ 1))) = .ok (.copies l') ∧ l'.length = 2 := ⟨_, rfl, rfl⟩

end PHinet
