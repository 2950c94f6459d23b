import Verif.Nodes.Markov
import Mathlib.Algebra.BigOperators.Group.List.Basic
import Mathlib.Algebra.Order.BigOperators.Group.List
import Mathlib.Tactic.FieldSimp
import Mathlib.Tactic.Ring
import Mathlib.Tactic.Linarith
import Mathlib.Tactic.NormNum

/-!
# Properties of SimpleMarkovClassifier, rank and weighted_choice (C56, C81, C82, C83)
-/

namespace Mdp.Markov

variable {K : Type} [DecidableEq K]

/-! ## Counting with a dictionary -/

/-- The dictionary counts how often each key occurs in `xs`. -/
structure Counts (d : List (K × Nat)) (xs : List K) : Prop where
  nodup : (d.map (·.1)).Nodup
  lookup : ∀ k, get d k = if k ∈ xs then some (xs.count k) else none

theorem mem_keys_iff (d : List (K × Nat)) (k : K) : k ∈ d.map (·.1) ↔ (get d k).isSome := by
  unfold get
  induction d with
  | nil => simp
  | cons p d ih =>
    rw [List.map_cons, List.mem_cons, List.lookup_cons, ih]
    by_cases h : k = p.1
    · simp [h]
    · have : (k == p.1) = false := by simpa using h
      simp [h, this]

theorem Counts.mem {d : List (K × Nat)} {xs : List K} (h : Counts d xs) (k : K) : k ∈ d.map (·.1) ↔ k ∈ xs := by
  rw [mem_keys_iff, h.lookup]
  by_cases hk : k ∈ xs <;> simp [hk]

theorem lookup_map_inc (d : List (K × Nat)) (k k' : K) :
    (d.map fun p => if p.1 = k then (p.1, p.2 + 1) else p).lookup k' =
      if k' = k then (d.lookup k').map (· + 1) else d.lookup k' := by
  induction d with
  | nil => simp
  | cons p d ih =>
    rw [List.map_cons, List.lookup_cons, List.lookup_cons, ih]
    by_cases h1 : p.1 = k <;> by_cases h2 : k' = p.1
    · simp [h1, h2]
    · have e : (k' == p.1) = false := by simpa using h2
      have : ¬ k' = k := fun hc => h2 (by rw [hc, h1])
      simp only [h1, if_true, this, if_false]
      rw [h1] at e; simp [e, h1]
    · subst h2; simp [h1]
    · have e : (k' == p.1) = false := by simpa using h2
      simp [h1, e]

theorem lookup_append_one (d : List (K × Nat)) (k k' : K) (v : Nat) :
    (d ++ [(k, v)]).lookup k' = (d.lookup k').or (if k' = k then some v else none) := by
  induction d with
  | nil =>
    rw [List.nil_append, List.lookup_cons]
    by_cases h : k' = k
    · simp [h]
    · have : (k' == k) = false := by simpa using h
      simp [h, this]
  | cons p d ih =>
    rw [List.cons_append, List.lookup_cons, List.lookup_cons, ih]
    cases (k' == p.1) <;> simp

theorem Counts.inc {d : List (K × Nat)} {xs : List K} (h : Counts d xs) (k : K) : Counts (inc d k) (xs ++ [k]) := by
  unfold Markov.inc
  rw [h.lookup k]
  by_cases hk : k ∈ xs
  · simp only [hk, if_true]
    refine ⟨?_, fun k' => ?_⟩
    · have : (d.map fun p => if p.1 = k then (p.1, p.2 + 1) else p).map (·.1) = d.map (·.1) := by
        rw [List.map_map]
        apply List.map_congr_left
        intro p _
        simp only [Function.comp]
        split <;> rfl
      rw [this]; exact h.nodup
    · have hlk := h.lookup k'
      unfold get at hlk ⊢
      rw [lookup_map_inc, hlk]
      by_cases h1 : k' = k
      · subst h1; simp [hk, List.count_append]
      · simp only [h1, if_false, List.mem_append, List.mem_singleton, or_false, List.count_append]
        rw [List.count_eq_zero.2 (by simpa using h1 : k' ∉ [k]), Nat.add_zero]
  · simp only [hk, if_false]
    refine ⟨?_, fun k' => ?_⟩
    · rw [List.map_append, List.nodup_append]
      refine ⟨h.nodup, by simp, ?_⟩
      intro a ha b hb
      have : b = k := by simpa using hb
      subst this
      intro e; subst e
      exact hk ((h.mem a).1 ha)
    · have hlk := h.lookup k'
      unfold get at hlk ⊢
      rw [lookup_append_one, hlk]
      by_cases h1 : k' = k
      · subst h1; simp [hk, List.count_append, List.count_eq_zero.2 hk]
      · by_cases h2 : k' ∈ xs
        · simp [h1, h2, List.count_append, List.count_eq_zero.2 (by simpa using h1 : k' ∉ [k])]
        · simp [h1, h2]

/-! ## Specification -/

variable {Ft L : Type} [DecidableEq Ft] [DecidableEq L]

/-- The labelled samples of a chunk: a single label counts for all rows. -/
def samples (c : List Ft × LabelArg L) : List (Ft × L) :=
  match c.2 with
  | .scalar l => c.1.map fun f => (f, l)
  | .array ls => c.1.zip ls
  | .iter ls => c.1.zip ls

/-- The state counts the samples. -/
structure Good (s : St Ft L) (xs : List (Ft × L)) : Prop where
  total : s.total = xs.length
  features : Counts s.features (xs.map (·.1))
  labels : Counts s.labels (xs.map (·.2))
  conns : Counts s.conns xs

theorem Good.learn {s : St Ft L} {xs : List (Ft × L)} (h : Good s xs) (p : Ft × L) :
    Good (s.learn p.1 p.2) (xs ++ [p]) := by
  refine ⟨?_, ?_, ?_, h.conns.inc p⟩
  · simp [St.learn, h.total]
  · rw [List.map_append]; exact h.features.inc p.1
  · rw [List.map_append]; exact h.labels.inc p.2

theorem Good.fold {s : St Ft L} {xs : List (Ft × L)} (h : Good s xs) (ys : List (Ft × L)) :
    Good (ys.foldl (fun s p => s.learn p.1 p.2) s) (xs ++ ys) := by
  induction ys generalizing s xs with
  | nil => simpa using h
  | cons p ys ih =>
    rw [List.foldl_cons]
    have := ih (h.learn p)
    rwa [List.append_assoc] at this

theorem good_new : Good (St.new Ft L) [] :=
  ⟨rfl, ⟨List.nodup_nil, fun _ => rfl⟩, ⟨List.nodup_nil, fun _ => rfl⟩, ⟨List.nodup_nil, fun _ => rfl⟩⟩

theorem good_train {s : St Ft L} {xs : List (Ft × L)} (h : Good s xs) (c : List Ft × LabelArg L)
    (hc : c.2.check c.1.length = true) : (s.train c.1 c.2).1 = true ∧ Good (s.train c.1 c.2).2 (xs ++ samples c) := by
  unfold St.train
  rw [if_pos hc]
  refine ⟨rfl, ?_⟩
  have : stretched c.1 c.2 = samples c := by
    obtain ⟨x, l⟩ := c
    cases l <;> rfl
  rw [this]
  exact h.fold _

/-- Training with the chunks one after the other; a refused chunk changes nothing. -/
def trainAll (cs : List (List Ft × LabelArg L)) : St Ft L :=
  cs.foldl (fun s c => (s.train c.1 c.2).2) (St.new Ft L)

theorem good_trainAll (cs : List (List Ft × LabelArg L)) (h : ∀ c ∈ cs, c.2.check c.1.length = true) :
    Good (trainAll cs) (cs.flatMap samples) := by
  have : ∀ (cs : List (List Ft × LabelArg L)), (∀ c ∈ cs, c.2.check c.1.length = true) → ∀ s xs, Good s xs →
      Good (cs.foldl (fun s c => (s.train c.1 c.2).2) s) (xs ++ cs.flatMap samples) := by
    intro cs
    induction cs with
    | nil => intro _ s xs hs; simpa using hs
    | cons c cs ih =>
      intro h s xs hs
      rw [List.foldl_cons, List.flatMap_cons, ← List.append_assoc]
      exact ih (fun c' hc' => h c' (by simp [hc'])) _ _ (good_train hs c (h c (by simp))).2
  have := this cs h _ _ good_new
  rwa [List.nil_append] at this

theorem div?_some {a b : Rat} (hb : b ≠ 0) : div? a b = some (a / b) := if_neg hb

theorem mapM_some {A B : Type} (f : A → Option B) (g : A → B) (l : List A) (h : ∀ a ∈ l, f a = some (g a)) :
    l.mapM f = some (l.map g) := by
  induction l with
  | nil => rfl
  | cons a l ih =>
    rw [List.mapM_cons, h a (by simp), ih fun a ha => h a (by simp [ha])]
    rfl

theorem count_inst {A : Type} (b1 b2 : BEq A) [@LawfulBEq A b1] [@LawfulBEq A b2] (a : A) (l : List A) :
    @List.count A b1 a l = @List.count A b2 a l := by
  induction l with
  | nil => rfl
  | cons c l ih =>
    rw [@List.count_cons A b1, @List.count_cons A b2, ih]
    have : @BEq.beq A b1 c a = @BEq.beq A b2 c a := by
      rw [Bool.eq_iff_iff, @beq_iff_eq A b1, @beq_iff_eq A b2]
    rw [this]

theorem probLabel_eq {s : St Ft L} {xs : List (Ft × L)} (hs : Good s xs) (f : Ft) (hf : f ∈ xs.map (·.1)) (l : L)
    (hl : l ∈ xs.map (·.2)) : s.probLabel f ((xs.map (·.1)).count f) l =
      some (l, (xs.count (f, l) : Rat) / ((xs.map (·.1)).count f : Rat)) := by
  have hpos : 0 < (xs.map (·.2)).count l := List.count_pos_iff.2 hl
  have hfpos : 0 < (xs.map (·.1)).count f := List.count_pos_iff.2 hf
  have hn : 0 < xs.length := by
    cases xs with
    | nil => simp at hl
    | cons _ _ => simp
  have h1 : ((xs.map (·.2)).count l : Rat) ≠ 0 := by exact_mod_cast (by omega)
  have h2 : (xs.length : Rat) ≠ 0 := by exact_mod_cast (by omega)
  have h3 : ((xs.map (·.1)).count f : Rat) ≠ 0 := by exact_mod_cast (by omega)
  have hconn : (get s.conns (f, l)).getD 0 = xs.count (f, l) := by
    rw [hs.conns.lookup]
    split
    · exact count_inst _ _ _ _
    · rename_i h; rw [List.count_eq_zero.2 h]; rfl
  have hlab : (get s.labels l).getD 0 = (xs.map (·.2)).count l := by
    rw [hs.labels.lookup, if_pos hl]; rfl
  unfold St.probLabel
  simp only [hconn, hlab, hs.total, div?_some h1, div?_some h2, Option.bind_some]
  rw [div?_some (div_ne_zero h3 h2)]
  simp only [Option.map_some, Option.some.injEq, Prod.mk.injEq, true_and]
  field_simp

theorem sum_counts (xs : List (Ft × L)) (f : Ft) (D : List L) (hD : D.Nodup) (h : ∀ p ∈ xs, p.2 ∈ D) :
    (D.map fun l => xs.count (f, l)).sum = (xs.map (·.1)).count f := by
  induction xs with
  | nil => simp
  | cons p xs ih =>
    have ih := ih fun q hq => h q (by simp [hq])
    simp only [List.count_cons, List.map_cons]
    have hs : ∀ (D : List L), (D.map fun l => xs.count (f, l) + if (p == (f, l)) = true then 1 else 0).sum =
        (D.map fun l => xs.count (f, l)).sum + (D.map fun l => if (p == (f, l)) = true then 1 else 0).sum := by
      intro D
      induction D with
      | nil => rfl
      | cons l D ih2 => simp only [List.map_cons, List.sum_cons]; omega
    rw [hs, ih]
    congr 1
    by_cases hp : p.1 = f
    · have hone : ∀ D : List L, D.Nodup → p.2 ∈ D → (D.map fun l => if (p == (f, l)) = true then 1 else 0).sum = 1 := by
        intro D
        induction D with
        | nil => simp
        | cons l D ih2 =>
          intro hnd hm
          rw [List.nodup_cons] at hnd
          rw [List.map_cons, List.sum_cons]
          by_cases hl : p.2 = l
          · subst hl
            have hz : (D.map fun l => if (p == (f, l)) = true then 1 else 0).sum = 0 := by
              rw [List.sum_eq_zero]
              intro x hx
              obtain ⟨l, hl, rfl⟩ := List.mem_map.1 hx
              rw [if_neg]
              intro hc
              have := eq_of_beq hc
              rw [this] at hnd
              exact hnd.1 hl
            rw [hz, if_pos]
            rw [beq_iff_eq, ← hp]
          · have hm : p.2 ∈ D := by
              rcases List.mem_cons.1 hm with h | h
              · exact absurd h hl
              · exact h
            rw [ih2 hnd.2 hm, if_neg]
            intro hc
            have := eq_of_beq hc
            rw [this] at hl
            exact hl rfl
      rw [hone D hD (h p (by simp))]
      simp [hp]
    · have : ∀ x ∈ D.map fun l => if (p == (f, l)) = true then 1 else 0, x = 0 := by
        intro x hx
        obtain ⟨l, _, rfl⟩ := List.mem_map.1 hx
        rw [if_neg]
        intro hc
        have := eq_of_beq hc
        rw [this] at hp; exact hp rfl
      rw [List.sum_eq_zero this]
      have : (p.1 == f) = false := by simpa using hp
      simp [this]

/-- C56: after training with any accepted chunks, the probabilities of a feature that was seen are given for exactly
the labels that were seen, each once; each is the number of samples with the feature and the label divided by the
number of samples with the feature; they sum to one. No division by zero occurs. -/
theorem markov_probabilities (cs : List (List Ft × LabelArg L)) (h : ∀ c ∈ cs, c.2.check c.1.length = true) (f : Ft)
    (hf : f ∈ (cs.flatMap samples).map (·.1)) :
    ∃ ps, (trainAll cs).probOne f = some ps ∧ (ps.map (·.1)).Nodup ∧
      (∀ l, l ∈ ps.map (·.1) ↔ l ∈ (cs.flatMap samples).map (·.2)) ∧
      (∀ p ∈ ps, p.2 = ((cs.flatMap samples).count (f, p.1) : Rat) / (((cs.flatMap samples).map (·.1)).count f : Rat)) ∧
      (ps.map (·.2)).sum = 1 := by
  have hs := good_trainAll cs h
  generalize trainAll cs = s at hs
  generalize cs.flatMap samples = xs at hs hf
  let g : L × Nat → L × Rat := fun p => (p.1, (xs.count (f, p.1) : Rat) / ((xs.map (·.1)).count f : Rat))
  have hkeys : (s.labels.map g).map (·.1) = s.labels.map (·.1) := by rw [List.map_map]; rfl
  refine ⟨s.labels.map g, ?_, ?_, ?_, ?_, ?_⟩
  · unfold St.probOne
    rw [hs.features.lookup, if_pos hf]
    apply mapM_some
    intro p hp
    exact probLabel_eq hs f hf p.1 ((hs.labels.mem p.1).1 (List.mem_map_of_mem hp))
  · rw [hkeys]; exact hs.labels.nodup
  · intro l; rw [hkeys]; exact hs.labels.mem l
  · intro p hp
    obtain ⟨q, _, rfl⟩ := List.mem_map.1 hp
    rfl
  · have hsum := sum_counts xs f (s.labels.map (·.1)) hs.labels.nodup
      fun p hp => (hs.labels.mem p.2).2 (List.mem_map_of_mem hp)
    rw [List.map_map] at hsum ⊢
    have hfpos : 0 < (xs.map (·.1)).count f := List.count_pos_iff.2 hf
    have h3 : ((xs.map (·.1)).count f : Rat) ≠ 0 := by exact_mod_cast (by omega)
    have : ∀ (D : List (L × Nat)), (D.map ((·.2) ∘ g)).sum =
        ((D.map ((fun l => xs.count (f, l)) ∘ (·.1))).sum : Nat) / ((xs.map (·.1)).count f : Rat) := by
      intro D
      induction D with
      | nil => simp
      | cons p D ih =>
        rw [List.map_cons, List.sum_cons, ih, List.map_cons, List.sum_cons, Nat.cast_add, add_div]
        rfl
    rw [this, hsum]
    exact div_self h3

/-- C56: a feature that was never seen has no probabilities. -/
theorem markov_unseen (cs : List (List Ft × LabelArg L)) (h : ∀ c ∈ cs, c.2.check c.1.length = true) (f : Ft)
    (hf : f ∉ (cs.flatMap samples).map (·.1)) : (trainAll cs).probOne f = some [] := by
  have hs := good_trainAll cs h
  unfold St.probOne
  rw [hs.features.lookup, if_neg hf]

/-- A list of labels of the wrong length is refused and changes nothing. -/
theorem markov_refused (s : St Ft L) (x : List Ft) (ls : List L) (h : ls.length ≠ x.length) :
    s.train x (.array ls) = (false, s) := by
  simp [St.train, LabelArg.check, h]

/-- C81: a single label that is not iterable counts for every row. -/
theorem single_label_partial (s : St Ft L) (x : List Ft) (l : L) :
    s.train x (.scalar l) = s.train x (.array (x.map fun _ => l)) := by
  have : x.map (fun f => (f, l)) = x.zip (x.map fun _ => l) := by
    induction x with
    | nil => rfl
    | cons a x ih => simp [ih]
  simp [St.train, LabelArg.check, stretched, this]

/-- C81 is false for strings: training three rows with the single label `"on"` gives the first row the label `"o"`,
the second `"n"` and forgets the third. -/
theorem string_label_split :
    ((St.new Nat String).train [10, 20, 30] (.iter ["o", "n"])).1 = true ∧
    (((St.new Nat String).train [10, 20, 30] (.iter ["o", "n"])).2).labels = [("o", 1), ("n", 1)] ∧
    (((St.new Nat String).train [10, 20, 30] (.iter ["o", "n"])).2).total = 2 := by decide

/-! ## rank -/

/-- C82: `rank` lists the labels whose probability exceeds the threshold, each once, with non-increasing
probabilities. -/
theorem rank_correct (prob : List (L × Rat)) (hnd : (prob.map (·.1)).Nodup) (threshold : Option Rat) :
    (rank prob threshold).Nodup ∧
    (∀ l, l ∈ rank prob threshold ↔ ∃ p, (l, p) ∈ prob ∧ ∀ t ∈ threshold, t < p) ∧
    (rank prob threshold).Pairwise fun a b => ∀ p q, (a, p) ∈ prob → (b, q) ∈ prob → q ≤ p := by
  have key : ∀ r : List (L × Rat), r.Sublist prob →
      ((r.insertionSort fun a b => a.2 ≥ b.2).map (·.1)).Nodup ∧
      (∀ l, l ∈ (r.insertionSort fun a b => a.2 ≥ b.2).map (·.1) ↔ ∃ p, (l, p) ∈ r) ∧
      ((r.insertionSort fun a b => a.2 ≥ b.2).map (·.1)).Pairwise fun a b =>
        ∀ p q, (a, p) ∈ prob → (b, q) ∈ prob → q ≤ p := by
    intro r hr
    have hp := List.perm_insertionSort (fun a b : L × Rat => a.2 ≥ b.2) r
    haveI : Std.Total (fun a b : L × Rat => a.2 ≥ b.2) := ⟨fun a b => le_total b.2 a.2⟩
    haveI : IsTrans (L × Rat) (fun a b : L × Rat => a.2 ≥ b.2) := ⟨fun a b c h1 h2 => le_trans h2 h1⟩
    have hs := List.pairwise_insertionSort (fun a b : L × Rat => a.2 ≥ b.2) r
    have huniq : ∀ (a : L) (p q : Rat), (a, p) ∈ prob → (a, q) ∈ prob → p = q := by
      intro a p q h1 h2
      have := List.inj_on_of_nodup_map hnd h1 h2 rfl
      exact congrArg Prod.snd this
    refine ⟨?_, ?_, ?_⟩
    · exact (hp.map _).nodup_iff.2 (hnd.sublist (hr.map _))
    · intro l
      rw [(hp.map _).mem_iff]
      simp
    · rw [List.pairwise_map]
      refine hs.imp_of_mem ?_
      intro a b ha hb hab p q h1 h2
      have e1 := huniq a.1 p a.2 h1 (hr.subset (hp.mem_iff.1 ha))
      have e2 := huniq b.1 q b.2 h2 (hr.subset (hp.mem_iff.1 hb))
      rw [e1, e2]; exact hab
  cases threshold with
  | none =>
    obtain ⟨h1, h2, h3⟩ := key prob (List.Sublist.refl _)
    exact ⟨h1, fun l => (h2 l).trans (by simp), h3⟩
  | some t =>
    obtain ⟨h1, h2, h3⟩ := key (prob.filter fun p => p.2 > t) List.filter_sublist
    exact ⟨h1, fun l => (h2 l).trans (by simp), h3⟩

/-! ## weighted_choice -/

theorem choose_eq (r : Rat) (t : Rat) (d : List (L × Rat)) (hd : ∀ p ∈ d, 0 ≤ p.2) (h0 : t ≤ r)
    (h1 : r < t + (d.map (·.2)).sum) :
    ∃ (pre : List (L × Rat)) (p : L × Rat) (post : List (L × Rat)), d = pre ++ p :: post ∧ choose r t d = some p.1 ∧
      t + (pre.map (·.2)).sum ≤ r ∧ r < t + (pre.map (·.2)).sum + p.2 := by
  induction d generalizing t with
  | nil => simp at h1; exact absurd h0 (not_le.2 h1)
  | cons p d ih =>
    by_cases h : t + p.2 > r
    · exact ⟨[], p, d, rfl, by rw [choose, if_pos h], by simpa using h0, by simpa using h⟩
    · rw [List.map_cons, List.sum_cons, ← add_assoc] at h1
      obtain ⟨pre, q, post, e1, e2, e3, e4⟩ := ih (t + p.2) (fun q hq => hd q (by simp [hq])) (not_lt.1 h) h1
      refine ⟨p :: pre, q, post, by rw [e1]; rfl, by rw [choose, if_neg h, e2], ?_, ?_⟩
      · rw [List.map_cons, List.sum_cons, ← add_assoc]; exact e3
      · rw [List.map_cons, List.sum_cons, ← add_assoc]; exact e4

/-- C83: for weights that are not negative and not all zero, and every random number in `[0, 1)`, `weighted_choice`
returns the key in whose interval the number falls, when the unit interval is divided in proportion to the weights. -/
theorem weighted_choice_correct (d : List (L × Rat)) (hd : ∀ p ∈ d, 0 ≤ p.2) (hs : 0 < (d.map (·.2)).sum) (r : Rat)
    (h0 : 0 ≤ r) (h1 : r < 1) :
    ∃ (pre : List (L × Rat)) (p : L × Rat) (post : List (L × Rat)), d = pre ++ p :: post ∧
      weightedChoice d true r = some (some p.1) ∧
      (pre.map (·.2)).sum / (d.map (·.2)).sum ≤ r ∧ r < ((pre.map (·.2)).sum + p.2) / (d.map (·.2)).sum := by
  generalize hS : (d.map (·.2)).sum = S at hs
  let g : L × Rat → L × Rat := fun p => (p.1, p.2 / S)
  have hm : (d.mapM fun p => (div? p.2 S).map fun v => (p.1, v)) = some (d.map g) :=
    mapM_some _ g _ fun p _ => by rw [div?_some (ne_of_gt hs)]; rfl
  have hsum : ∀ l : List (L × Rat), ((l.map g).map (·.2)).sum = (l.map (·.2)).sum / S := by
    intro l
    induction l with
    | nil => simp
    | cons p l ih => simp only [List.map_cons, List.sum_cons, ih, add_div]; rfl
  obtain ⟨pre, p, post, e1, e2, e3, e4⟩ := choose_eq r 0 (d.map g) (fun p hp => by
    obtain ⟨q, hq, rfl⟩ := List.mem_map.1 hp
    exact div_nonneg (hd q hq) (le_of_lt hs)) h0 (by rw [hsum, hS, div_self (ne_of_gt hs)]; simpa using h1)
  obtain ⟨pre', rest, rfl, rfl, e5⟩ := List.map_eq_append_iff.1 e1
  obtain ⟨p', post', rfl, rfl, rfl⟩ := List.map_eq_cons_iff.1 e5
  refine ⟨pre', p', post', rfl, ?_, ?_, ?_⟩
  · unfold weightedChoice
    rw [if_pos rfl, hS, hm, Option.map_some, e2]
  · rw [hsum, zero_add] at e3; exact e3
  · rw [hsum, zero_add] at e4; rw [add_div]; exact e4

/-! ## Examples -/

def exChunks : List (List Nat × LabelArg String) :=
  [([1, 1, 2], .array ["a", "b", "a"]), ([1, 3], .scalar "a")]

example : (∀ c ∈ exChunks, c.2.check c.1.length = true) ∧ 1 ∈ (exChunks.flatMap samples).map (·.1) ∧
    7 ∉ (exChunks.flatMap samples).map (·.1) := by decide

example : (trainAll exChunks).probOne 1 = some [("a", 2 / 3), ("b", 1 / 3)] := by decide +kernel

example : rank [("a", (1 : Rat) / 4), ("b", 1 / 2), ("c", 1 / 4)] (some 0) = ["b", "a", "c"] := by decide +kernel

example : weightedChoice [("a", (1 : Rat)), ("b", 3)] true (1 / 2) = some (some "b") := by decide +kernel

end Mdp.Markov
