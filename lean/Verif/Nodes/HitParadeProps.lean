import Verif.Nodes.HitParade
import Mathlib.Tactic.ByContra
import Mathlib.Data.List.Perm.Basic

/-!
# Properties of the hit parade (C54)
-/

namespace Mdp.HitParade

/-! ## Specification -/

/-- `out` is a hit parade of `n` entries of the signal `x`, best first, with distance more than `d`. Entries not used
have the value `worst`. -/
structure IsHits {V : Type} (better : V → V → Prop) (worst : V) (n : Nat) (d : Int) (x : List V)
    (out : List (V × Int)) : Prop where
  /-- `n` entries, best first -/
  length : out.length = n
  sorted : out.Pairwise fun p q => ¬ better q.1 p.1
  /-- the recorded values are the values at the recorded indices -/
  values : ∀ p ∈ out, p.1 = worst ∨ ∃ i : Nat, p.2 = i ∧ x[i]? = some p.1
  /-- more than `d` apart -/
  apart : out.Pairwise fun p q => p.1 ≠ worst → q.1 ≠ worst → d < p.2 - q.2 ∨ d < q.2 - p.2
  /-- the best value is recorded -/
  best : ∀ v ∈ x, ∃ p ∈ out, ¬ better v p.1
  /-- a value better than all others up to distance `d` is recorded, unless all recorded ones are at least as good -/
  complete : ∀ (i : Nat) (v : V), x[i]? = some v →
    (∀ (j : Nat) (w : V), x[j]? = some w → j ≠ i → (i : Int) - j ≤ d → (j : Int) - i ≤ d → better v w) →
    (v, (i : Int)) ∈ out ∨ ∀ p ∈ out, ¬ better v p.1

/-! ## Both halves at once -/

variable {V : Type} {m : Nat}

structure Strict (bt : V → V → Prop) : Prop where
  irrefl : ∀ a, ¬ bt a a
  trans : ∀ {a b c}, bt a b → bt b c → bt a c
  total : ∀ a b, bt a b ∨ a = b ∨ bt b a

namespace Strict
variable {bt : V → V → Prop} (S : Strict bt)
include S

theorem asymm {a b : V} (h : bt a b) : ¬ bt b a := fun h' => S.irrefl _ (S.trans h h')
/-- `a` not better than `b`, `b` not better than `c`. -/
theorem nb {a b c : V} (h : ¬ bt a b) (h' : ¬ bt b c) : ¬ bt a c := by
  intro hac
  rcases S.total a b with h1 | rfl | h1
  · exact h h1
  · exact h' hac
  · exact h' (S.trans h1 hac)
theorem of_nb {a b c : V} (h : ¬ bt a b) (h' : bt c b) : bt c a := by
  rcases S.total a b with h1 | rfl | h1
  · exact absurd h1 h
  · exact h'
  · exact S.trans h' h1
theorem of_nb' {a b c : V} (h : ¬ bt a b) (h' : bt a c) : bt b c := by
  rcases S.total a b with h1 | rfl | h1
  · exact absurd h1 h
  · exact h'
  · exact S.trans h1 h'
end Strict

variable (bt : V → V → Prop) [DecidableRel bt]

def argw (M : Fin (m + 1) → V) : Fin (m + 1) :=
  (List.finRange (m + 1)).foldl (fun b i => if bt (M b) (M i) then i else b) 0

def stepG (d : Int) (s : Half V m) (x : V) (ix : Int) : Half V m :=
  let k := argw bt s.M
  if bt x (s.M k) then
    if ix - s.i s.l ≤ d ∧ bt x (s.M s.l) then ⟨setAt s.M s.l x, setAt s.i s.l ix, s.l⟩
    else if ix - s.i s.l > d then ⟨setAt s.M k x, setAt s.i k ix, k⟩
    else s
  else s

variable {bt}

theorem foldl_argw (S : Strict bt) (M : Fin (m + 1) → V) (l : List (Fin (m + 1))) (b : Fin (m + 1)) :
    (∀ i ∈ l, ¬ bt (M (l.foldl (fun b i => if bt (M b) (M i) then i else b) b)) (M i)) ∧
    ¬ bt (M (l.foldl (fun b i => if bt (M b) (M i) then i else b) b)) (M b) := by
  induction l generalizing b with
  | nil => exact ⟨by simp, S.irrefl _⟩
  | cons a l ih =>
    rw [List.foldl_cons]
    by_cases h : bt (M b) (M a)
    · rw [if_pos h]
      obtain ⟨h1, h2⟩ := ih a
      refine ⟨fun i hi => ?_, S.nb h2 (S.asymm h)⟩
      rcases List.mem_cons.1 hi with rfl | hi
      · exact h2
      · exact h1 i hi
    · rw [if_neg h]
      obtain ⟨h1, h2⟩ := ih b
      refine ⟨fun i hi => ?_, h2⟩
      rcases List.mem_cons.1 hi with rfl | hi
      · exact S.nb h2 h
      · exact h1 i hi

theorem argw_worst (S : Strict bt) (M : Fin (m + 1) → V) (i : Fin (m + 1)) : ¬ bt (M (argw bt M)) (M i) :=
  (foldl_argw S M _ 0).1 i (List.mem_finRange i)

theorem setAt_same {W : Type} (a : Fin (m + 1) → W) (k : Fin (m + 1)) (v : W) : setAt a k v k = v := by simp [setAt]
theorem setAt_ne {W : Type} (a : Fin (m + 1) → W) (k : Fin (m + 1)) (v : W) {j : Fin (m + 1)} (h : j ≠ k) :
    setAt a k v j = a j := by simp [setAt, h]

/-- What holds after the samples `x`. -/
structure Inv (bt : V → V → Prop) (worst : V) (d : Int) (x : List V) (s : Half V m) : Prop where
  floor : ∀ k, ¬ bt worst (s.M k)
  latest : s.M s.l ≠ worst → s.i s.l < x.length
  unused : s.M s.l = worst → ∀ k, s.M k = worst
  values : ∀ k, s.M k = worst ∨ ∃ i : Nat, s.i k = i ∧ x[i]? = some (s.M k)
  apart : ∀ j k, j ≠ k → s.M j ≠ worst → s.M k ≠ worst → d < s.i j - s.i k ∨ d < s.i k - s.i j
  order : ∀ k, k ≠ s.l → s.M k ≠ worst → s.i k + d < s.i s.l
  best : ∀ v ∈ x, ∃ k, ¬ bt v (s.M k)
  complete : ∀ (i : Nat) (v : V), x[i]? = some v →
    (∀ (j : Nat) (w : V), x[j]? = some w → j ≠ i → (i : Int) - j ≤ d → (j : Int) - i ≤ d → bt v w) →
    (∃ k, s.M k = v ∧ s.i k = i) ∨ ∀ k, ¬ bt v (s.M k)

theorem get_append {x : List V} {a : V} {i : Nat} {v : V} (h : (x ++ [a])[i]? = some v) :
    x[i]? = some v ∨ (i = x.length ∧ v = a) := by
  rcases Nat.lt_trichotomy i x.length with h1 | h1 | h1
  · rw [List.getElem?_append_left h1] at h; exact Or.inl h
  · subst h1; simp at h; exact Or.inr ⟨rfl, h.symm⟩
  · rw [List.getElem?_eq_none (by simp; omega)] at h; cases h

theorem get_append_left {x : List V} {a : V} {i : Nat} {v : V} (h : x[i]? = some v) : (x ++ [a])[i]? = some v := by
  have : i < x.length := by
    by_contra hc
    rw [List.getElem?_eq_none (by omega)] at h; cases h
  rw [List.getElem?_append_left this]; exact h

/-- Recording the new sample in slot `k`, which becomes the latest. -/
theorem Inv.record (S : Strict bt) {worst : V} {d : Int} (hd : 0 ≤ d) {x : List V} {s : Half V m}
    (inv : Inv bt worst d x s) (a : V) (hw : bt a worst) (k : Fin (m + 1)) (hk : bt a (s.M k))
    (hfar : ∀ j, j ≠ k → s.M j ≠ worst → s.i j + d < x.length)
    (hev : ∀ i v, x[i]? = some v →
      (∀ (j : Nat) (w : V), (x ++ [a])[j]? = some w → j ≠ i → (i : Int) - j ≤ d → (j : Int) - i ≤ d → bt v w) →
      s.M k = v → s.i k = i → ∀ j, ¬ bt v (s.M j)) :
    Inv bt worst d (x ++ [a]) ⟨setAt s.M k a, setAt s.i k x.length, k⟩ := by
  have hne : a ≠ worst := fun h => S.irrefl _ (h ▸ hw)
  have mono : ∀ v, (∃ j, ¬ bt v (s.M j)) → ∃ j, ¬ bt v (setAt s.M k a j) := by
    rintro v ⟨j, hj⟩
    by_cases h : j = k
    · subst h
      exact ⟨j, by rw [setAt_same]; exact S.nb hj (S.asymm hk)⟩
    · exact ⟨j, by rw [setAt_ne _ _ _ h]; exact hj⟩
  have monoAll : ∀ v, (∀ j, ¬ bt v (s.M j)) → ∀ j, ¬ bt v (setAt s.M k a j) := by
    intro v hv j
    by_cases h : j = k
    · subst h
      rw [setAt_same]; exact S.nb (hv j) (S.asymm hk)
    · rw [setAt_ne _ _ _ h]; exact hv j
  refine ⟨monoAll worst inv.floor, fun _ => ?_, fun h => ?_, ?_, ?_, ?_, ?_, ?_⟩
  · show setAt s.i k (x.length : Int) k < _
    rw [setAt_same]; simp; omega
  · change setAt s.M k a k = worst at h
    rw [setAt_same] at h; exact absurd h hne
  · intro j
    show setAt s.M k a j = worst ∨ ∃ i : Nat, setAt s.i k (x.length : Int) j = i ∧ _ = some (setAt s.M k a j)
    by_cases h : j = k
    · subst h
      rw [setAt_same, setAt_same]
      exact Or.inr ⟨x.length, rfl, by simp⟩
    · rw [setAt_ne _ _ _ h, setAt_ne _ _ _ h]
      exact (inv.values j).imp id fun ⟨i, h1, h2⟩ => ⟨i, h1, get_append_left h2⟩
  · intro i j hij h1 h2
    show d < setAt s.i k (x.length : Int) i - setAt s.i k (x.length : Int) j ∨
      d < setAt s.i k (x.length : Int) j - setAt s.i k (x.length : Int) i
    change setAt s.M k a i ≠ worst at h1
    change setAt s.M k a j ≠ worst at h2
    by_cases hi : i = k
    · subst hi
      have hj : j ≠ i := fun h => hij h.symm
      rw [setAt_ne _ _ _ hj] at h2
      rw [setAt_same, setAt_ne _ _ _ hj]
      have := hfar j hj h2
      omega
    · by_cases hj : j = k
      · subst hj
        rw [setAt_ne _ _ _ hi] at h1
        rw [setAt_same, setAt_ne _ _ _ hi]
        have := hfar i hi h1
        omega
      · rw [setAt_ne _ _ _ hi] at h1
        rw [setAt_ne _ _ _ hj] at h2
        rw [setAt_ne _ _ _ hi, setAt_ne _ _ _ hj]
        exact inv.apart i j hij h1 h2
  · intro j hj h1
    change j ≠ k at hj
    change setAt s.M k a j ≠ worst at h1
    show setAt s.i k (x.length : Int) j + d < setAt s.i k (x.length : Int) k
    rw [setAt_ne _ _ _ hj] at h1
    rw [setAt_same, setAt_ne _ _ _ hj]
    exact hfar j hj h1
  · intro v hv
    rcases List.mem_append.1 hv with hv | hv
    · exact mono v (inv.best v hv)
    · rw [List.mem_singleton] at hv
      subst hv
      exact ⟨k, by show ¬ bt v (setAt s.M k v k); rw [setAt_same]; exact S.irrefl _⟩
  · intro i v hi hloc
    rcases get_append hi with hi | ⟨rfl, rfl⟩
    · rcases inv.complete i v hi fun j w hj => hloc j w (get_append_left hj) with ⟨j, h1, h2⟩ | h
      · by_cases hj : j = k
        · subst hj
          exact Or.inr (monoAll v (hev i v hi hloc h1 h2))
        · exact Or.inl ⟨j, by show setAt s.M k a j = v; rw [setAt_ne _ _ _ hj]; exact h1,
            by show setAt s.i k (x.length : Int) j = i; rw [setAt_ne _ _ _ hj]; exact h2⟩
      · exact Or.inr (monoAll v h)
    · exact Or.inl ⟨k, setAt_same _ _ _, setAt_same _ _ _⟩

/-- Not recording it. -/
theorem Inv.skip {worst : V} {d : Int} {x : List V} {s : Half V m} (inv : Inv bt worst d x s) (a : V)
    (hb : ∃ k, ¬ bt a (s.M k))
    (hloc : (∀ (j : Nat) (w : V), x[j]? = some w → (x.length : Int) - j ≤ d → bt a w) → ∀ k, ¬ bt a (s.M k)) :
    Inv bt worst d (x ++ [a]) s := by
  refine ⟨inv.floor, fun h => ?_, inv.unused, ?_, inv.apart, inv.order, ?_, ?_⟩
  · have := inv.latest h
    simp; omega
  · exact fun k => (inv.values k).imp id fun ⟨i, h1, h2⟩ => ⟨i, h1, get_append_left h2⟩
  · intro v hv
    rcases List.mem_append.1 hv with hv | hv
    · exact inv.best v hv
    · rw [List.mem_singleton] at hv
      subst hv; exact hb
  · intro i v hi hl
    rcases get_append hi with hi | ⟨rfl, rfl⟩
    · exact inv.complete i v hi fun j w hj => hl j w (get_append_left hj)
    · refine Or.inr (hloc fun j w hj hd => ?_)
      have : j < x.length := by
        by_contra hc
        rw [List.getElem?_eq_none (by omega)] at hj; cases hj
      exact hl j w (get_append_left hj) (by omega) hd (by omega)

theorem inv_step (S : Strict bt) {worst : V} {d : Int} (hd : 0 ≤ d) {x : List V} {s : Half V m}
    (inv : Inv bt worst d x s) (a : V) (hw : ¬ bt worst a) :
    Inv bt worst d (x ++ [a]) (stepG bt d s a x.length) := by
  have hworst := argw_worst S s.M
  unfold stepG
  simp only
  by_cases h1 : bt a (s.M (argw bt s.M))
  · rw [if_pos h1]
    have hw : bt a worst := by
      rcases S.total a worst with h | h | h
      · exact h
      · subst h; exact absurd h1 (inv.floor _)
      · exact absurd h hw
    by_cases h2 : (x.length : Int) - s.i s.l ≤ d ∧ bt a (s.M s.l)
    · rw [if_pos h2]
      by_cases l0 : s.M s.l = worst
      · refine inv.record S hd a hw s.l h2.2 (fun j hj hn => absurd (inv.unused l0 j) hn) ?_
        intro i v hi hloc e1 e2 j
        rw [← e1, l0]; exact inv.floor j
      have l2 := inv.latest l0
      refine inv.record S hd a hw s.l h2.2 (fun j hj hn => ?_) ?_
      · have := inv.order j hj hn
        omega
      · intro i v hi hloc e1 e2
        exfalso
        have hlt : i < x.length := by
          by_contra hc
          rw [List.getElem?_eq_none (by omega)] at hi; cases hi
        have := hloc x.length a (by simp) (by omega) (by omega) (by omega)
        exact S.asymm h2.2 (e1 ▸ this)
    · rw [if_neg h2]
      by_cases h3 : (x.length : Int) - s.i s.l > d
      · rw [if_pos h3]
        refine inv.record S hd a hw _ h1 (fun j hj hn => ?_) ?_
        · have l0 : s.M s.l ≠ worst := fun h => hn (inv.unused h j)
          have l2 := inv.latest l0
          by_cases hl : j = s.l
          · subst hl; omega
          · have := inv.order j hl hn
            omega
        · intro i v hi hloc e1 e2 j
          rw [← e1]
          exact hworst j
      · rw [if_neg h3]
        have h4 : ¬ bt a (s.M s.l) := fun h => h2 ⟨by omega, h⟩
        refine inv.skip a ⟨s.l, h4⟩ fun hloc => ?_
        exfalso
        rcases inv.values s.l with l0 | ⟨i, e1, e2⟩
        · rw [l0] at h4; exact h4 hw
        · exact h4 (hloc i _ e2 (by omega))
  · rw [if_neg h1]
    exact inv.skip a ⟨_, h1⟩ fun _ k => S.nb h1 (hworst k)

theorem inv_run (S : Strict bt) {worst : V} {d : Int} (hd : 0 ≤ d) (y : List V) (hy : ∀ v ∈ y, ¬ bt worst v) :
    ∀ (x : List V) (s : Half V m), Inv bt worst d x s →
      Inv bt worst d (x ++ y) ((y.zip ((List.range y.length).map fun i => ((x.length + i : Nat) : Int))).foldl
        (fun s p => stepG bt d s p.1 p.2) s) := by
  induction y with
  | nil => intro x s inv; simpa using inv
  | cons a y ih =>
    intro x s inv
    have h1 := inv_step S hd inv a (hy a (by simp))
    have h2 := ih (fun v hv => hy v (by simp [hv])) _ _ h1
    rw [List.append_assoc, List.singleton_append] at h2
    rw [List.length_cons, List.range_succ_eq_map, List.map_cons, List.zip_cons_cons, List.foldl_cons, List.map_map]
    have e : (List.range y.length).map ((fun i => ((x.length + i : Nat) : Int)) ∘ Nat.succ) =
        (List.range y.length).map fun i => (((x ++ [a]).length + i : Nat) : Int) := by
      apply List.map_congr_left
      intro i _
      simp; omega
    rw [e]
    exact h2

theorem inv_new (S : Strict bt) (worst : V) (d : Int) :
    Inv bt worst d [] (⟨fun _ => worst, fun _ => 0, 0⟩ : Half V m) :=
  ⟨fun _ => S.irrefl _, fun h => absurd rfl h, fun _ _ => rfl, fun _ => Or.inl rfl, fun _ _ _ h => absurd rfl h, fun _ _ h => absurd rfl h,
    by simp, by simp⟩

theorem inv_hits (S : Strict bt) {worst : V} {d : Int} {x : List V} {s : Half V m} (inv : Inv bt worst d x s)
    (out : List (V × Int)) (hp : out.Perm s.pairs) (hs : out.Pairwise fun p q => ¬ bt q.1 p.1) :
    IsHits bt worst (m + 1) d x out := by
  have mem : ∀ p, p ∈ out ↔ ∃ k, (s.M k, s.i k) = p := by
    intro p
    rw [hp.mem_iff]
    simp [Half.pairs]
  refine ⟨by rw [hp.length_eq]; simp [Half.pairs], hs, ?_, ?_, ?_, ?_⟩
  · intro p hp'
    obtain ⟨k, rfl⟩ := (mem p).1 hp'
    exact inv.values k
  · refine (hp.pairwise_iff ?_).2 ?_
    · intro a b h h1 h2
      exact (h h2 h1).symm
    · unfold Half.pairs
      rw [List.pairwise_map]
      exact (List.nodup_finRange (m + 1)).imp fun {a b} h h1 h2 => inv.apart a b h h1 h2
  · intro v hv
    obtain ⟨k, hk⟩ := inv.best v hv
    exact ⟨_, (mem _).2 ⟨k, rfl⟩, hk⟩
  · intro i v hi hl
    rcases inv.complete i v hi hl with ⟨k, h1, h2⟩ | h
    · exact Or.inl ((mem _).2 ⟨k, by rw [h1, h2]⟩)
    · refine Or.inr fun p hp' => ?_
      obtain ⟨k, rfl⟩ := (mem p).1 hp'
      exact h k

/-! ## The two halves -/

variable [LinearOrder V]

theorem strict_gt : Strict (fun a b : V => a > b) :=
  ⟨fun a => lt_irrefl a, fun h h' => lt_trans h' h, fun a b => by
    rcases lt_trichotomy a b with h | h | h
    · exact Or.inr (Or.inr h)
    · exact Or.inr (Or.inl h)
    · exact Or.inl h⟩

theorem strict_lt : Strict (fun a b : V => a < b) :=
  ⟨fun a => lt_irrefl a, fun h h' => lt_trans h h', fun a b => lt_trichotomy a b⟩

theorem stepMax_eq (d : Int) (s : Half V m) (x : V) (ix : Int) : stepMax d s x ix = stepG (fun a b : V => a > b) d s x ix :=
  rfl
theorem stepMin_eq (d : Int) (s : Half V m) (x : V) (ix : Int) : stepMin d s x ix = stepG (fun a b : V => a < b) d s x ix :=
  rfl

theorem update_halves (d : Int) (p : Parade V m) (l : List (V × Int)) :
    p.update d l = ⟨l.foldl (fun s a => stepMax d s a.1 a.2) p.mx, l.foldl (fun s a => stepMin d s a.1 a.2) p.mn⟩ := by
  unfold Parade.update
  induction l generalizing p with
  | nil => rfl
  | cons a l ih => rw [List.foldl_cons, ih]; rfl

/-! ## The node -/

variable {c : Nat}

/-- What holds for the node after chunks with rows `x` in total. -/
structure NodeInv (lo hi : V) (d : Int) (x : List (Fin c → V)) (s : Node V m c) : Prop where
  tlen : s.tlen = x.length
  mx : ∀ j, Inv (fun a b : V => a > b) lo d (x.map fun r => r j) ((s.hit.getD fun _ => Parade.new m lo hi) j).mx
  mn : ∀ j, Inv (fun a b : V => a < b) hi d (x.map fun r => r j) ((s.hit.getD fun _ => Parade.new m lo hi) j).mn

theorem train_inv {lo hi : V} {d : Int} (hd : 0 ≤ d) {x : List (Fin c → V)} {s : Node V m c}
    (inv : NodeInv lo hi d x s) (y : List (Fin c → V)) (hy : ∀ r ∈ y, ∀ j, lo ≤ r j ∧ r j ≤ hi) :
    NodeInv lo hi d (x ++ y) (s.train lo hi d y) := by
  refine ⟨by simp [Node.train, inv.tlen], fun j => ?_, fun j => ?_⟩
  · have := inv_run strict_gt hd (y.map fun r => r j) (by simpa using fun r hr => (hy r hr j).1) _ _ (inv.mx j)
    rw [List.map_append]
    simp only [Node.train, Option.getD_some, update_halves, stepMax_eq, inv.tlen]
    simpa using this
  · have := inv_run strict_lt hd (y.map fun r => r j) (by simpa using fun r hr => (hy r hr j).2) _ _ (inv.mn j)
    rw [List.map_append]
    simp only [Node.train, Option.getD_some, update_halves, stepMin_eq, inv.tlen]
    simpa using this

theorem trains_inv {lo hi : V} {d : Int} (hd : 0 ≤ d) (chunks : List (List (Fin c → V)))
    (hc : ∀ ch ∈ chunks, ∀ r ∈ ch, ∀ j, lo ≤ r j ∧ r j ≤ hi) :
    ∀ (x : List (Fin c → V)) (s : Node V m c), NodeInv lo hi d x s →
      NodeInv lo hi d (x ++ chunks.flatten) (chunks.foldl (fun s ch => s.train lo hi d ch) s) := by
  induction chunks with
  | nil => intro x s inv; simpa using inv
  | cons ch chunks ih =>
    intro x s inv
    have := ih (fun c' h => hc c' (by simp [h])) _ _ (train_inv hd inv ch (hc ch (by simp)))
    rw [List.append_assoc] at this
    simpa using this

/-- C54: after training with any chunks (values between the extreme numbers of the dtype: all integers, all finite floats), what
`get_maxima` and `get_minima` return for column `j` are hit parades of that column of all the rows. -/
theorem hit_parade (lo hi : V) (d : Int) (hd : 0 ≤ d) (chunks : List (List (Fin c → V)))
    (hc : ∀ ch ∈ chunks, ∀ r ∈ ch, ∀ j, lo ≤ r j ∧ r j ≤ hi) (j : Fin c) (p : Parade V m)
    (hp : ((chunks.foldl (fun s ch => s.train lo hi d ch) (Node.new V m c)).hit.map fun h => h j) = some p)
    (out : List (V × Int)) :
    (p.maxima out → IsHits (fun a b => a > b) lo (m + 1) d (chunks.flatten.map fun r => r j) out) ∧
    (p.minima out → IsHits (fun a b => a < b) hi (m + 1) d (chunks.flatten.map fun r => r j) out) := by
  have inv := trains_inv hd chunks hc [] (Node.new V m c) ⟨rfl, fun _ => inv_new strict_gt lo d, fun _ => inv_new strict_lt hi d⟩
  rw [List.nil_append] at inv
  obtain ⟨h, e1, e2⟩ := Option.map_eq_some_iff.1 hp
  have a := inv.mx j
  have b := inv.mn j
  rw [e1, Option.getD_some, e2] at a b
  refine ⟨fun ho => inv_hits strict_gt a out ho.1 (ho.2.imp fun h => not_lt.2 h),
    fun ho => inv_hits strict_lt b out ho.1 (ho.2.imp fun h => not_lt.2 h)⟩

/-- C54: the state of the node depends on the rows only, not on the chunks (there must be a chunk). -/
theorem chunks_irrelevant (lo hi : V) (d : Int) (chunks : List (List (Fin c → V))) (hne : chunks ≠ []) :
    chunks.foldl (fun s ch => s.train lo hi d ch) (Node.new V m c) = (Node.new V m c).train lo hi d chunks.flatten := by
  have two : ∀ (s : Node V m c) (a b : List (Fin c → V)),
      (s.train lo hi d a).train lo hi d b = s.train lo hi d (a ++ b) := by
    intro s a b
    unfold Node.train
    simp only [Option.getD_some, List.length_append, Node.mk.injEq, Option.some.injEq, Nat.add_assoc, and_true]
    funext j
    unfold Parade.update
    rw [← List.foldl_append]
    congr 1
    rw [List.map_append, List.range_add, List.map_append, List.zip_append (by simp)]
    simp [Nat.add_assoc, Function.comp_def]
  have all : ∀ (chunks : List (List (Fin c → V))) (s : Node V m c) (a : List (Fin c → V)),
      chunks.foldl (fun s ch => s.train lo hi d ch) (s.train lo hi d a) = s.train lo hi d (a ++ chunks.flatten) := by
    intro chunks
    induction chunks with
    | nil => intro s a; simp
    | cons ch chunks ih => intro s a; rw [List.foldl_cons, two, ih]; simp [List.append_assoc]
  cases chunks with
  | nil => exact absurd rfl hne
  | cons ch chunks => rw [List.foldl_cons, all]; simp

/-- Without the restriction: if all values are below the smallest finite number, no maximum is recorded. -/
theorem infinite_not_recorded (lo hi inf : V) (h : inf < lo) (d : Int) :
    ((Node.new V 0 1).train lo hi d [fun _ => inf]).hit.map (fun h => (h 0).mx.pairs) = some [(lo, 0)] := by
  have : ¬ inf > lo := not_lt.2 (le_of_lt h)
  simp [Node.train, Node.new, Parade.update, Parade.new, stepMax, this, Half.pairs]

/-- Two chunks, three slots, distance 1: the first maximum found (5 at 1) is replaced by its neighbour (9 at 2). -/
example : ((([[fun _ => 3, fun _ => 5, fun _ => 9], [fun _ => 2, fun _ => 7, fun _ => 7, fun _ => 1]] :
    List (List (Fin 1 → Int))).foldl (fun s ch => s.train (-100) 100 1 ch) (Node.new Int 2 1)).hit.map
      fun h => (h 0).mx.pairs) = some [(9, 2), (7, 4), (1, 6)] := by decide

example : ∃ p : Parade Int 2, ((([[fun _ => 3, fun _ => 5, fun _ => 9], [fun _ => 2, fun _ => 7, fun _ => 7, fun _ => 1]] :
    List (List (Fin 1 → Int))).foldl (fun s ch => s.train (-100) 100 1 ch) (Node.new Int 2 1)).hit.map
      fun h => h 0) = some p ∧ p.maxima [(9, 2), (7, 4), (1, 6)] ∧ p.minima [(1, 6), (2, 3), (3, 0)] := by
  refine ⟨_, rfl, ⟨?_, by decide⟩, ⟨?_, by decide⟩⟩
  · decide
  · decide

end Mdp.HitParade
