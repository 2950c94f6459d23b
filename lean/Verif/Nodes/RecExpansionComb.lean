import Verif.Nodes.ExpansionProps
import Mathlib.Algebra.BigOperators.Intervals
import Mathlib.Algebra.BigOperators.Fin
import Mathlib.Data.List.Dedup
import Mathlib.Tactic.Ring

/-!
# The order in which the products are enumerated

Exponent vectors are functions on the numbers of the variables. A block belongs to a largest variable `i` and to the
exponents `rest` of smaller variables; its members have the exponents `1, 2, …` of `i`.
-/

namespace Mdp.RecExp

/-- Exponents with one further entry. -/
def addv (rest : Nat → Nat) (v d : Nat) : Nat → Nat := fun w => rest w + if w = v then d else 0

/-- The members of a block. -/
def items (i : Nat) (rest : Nat → Nat) (L : Nat) : List (Nat → Nat) := (List.range L).map fun t => addv rest i (t + 1)

/-- The factors of `process`, in order. -/
def pairs (deg ld lv : Nat) : List (Nat × Nat) :=
  (List.range lv).flatMap fun v => (List.range' 1 (deg - ld)).map fun d => (v, d)

theorem mem_pairs (deg ld lv v d : Nat) : (v, d) ∈ pairs deg ld lv ↔ v < lv ∧ 1 ≤ d ∧ ld + d ≤ deg := by
  unfold pairs
  simp only [List.mem_flatMap, List.mem_range, List.mem_map, List.mem_range'_1, Prod.mk.injEq]
  constructor
  · rintro ⟨a, h1, b, h2, rfl, rfl⟩; omega
  · rintro ⟨h1, h2, h3⟩; exact ⟨v, h1, d, by omega, rfl, rfl⟩

theorem nodup_pairs (deg ld lv : Nat) : (pairs deg ld lv).Nodup := by
  unfold pairs
  rw [List.nodup_flatMap]
  constructor
  · intro v _
    exact List.Nodup.map (fun a b h => (Prod.mk.inj h).2) List.nodup_range'
  · refine List.Pairwise.imp ?_ List.nodup_range
    intro a b hab p ha hb
    simp only [List.mem_map] at ha hb
    obtain ⟨d, _, rfl⟩ := ha
    obtain ⟨d', _, h⟩ := hb
    exact hab (Prod.mk.inj h).1.symm

/-- All members of blocks below a block. -/
def below (deg i lv : Nat) (rest : Nat → Nat) (ld : Nat) : List (Nat → Nat) :=
  (pairs deg ld lv).attach.flatMap fun p =>
    items i (addv rest p.1.1 p.1.2) (deg + 1 - ld - p.1.2) ++ below deg i p.1.1 (addv rest p.1.1 p.1.2) (ld + p.1.2)
termination_by lv
decreasing_by
  have := p.2
  obtain ⟨⟨a, b⟩, h⟩ := p
  exact ((mem_pairs _ _ _ _ _).1 h).1

theorem below_eq (deg i lv : Nat) (rest : Nat → Nat) (ld : Nat) :
    below deg i lv rest ld = (pairs deg ld lv).flatMap fun p =>
      items i (addv rest p.1 p.2) (deg + 1 - ld - p.2) ++ below deg i p.1 (addv rest p.1 p.2) (ld + p.2) := by
  conv => lhs; unfold below
  rw [List.flatMap_subtype (p := fun q => q ∈ pairs deg ld lv) (g := fun p =>
      items i (addv rest p.1 p.2) (deg + 1 - ld - p.2) ++ below deg i p.1 (addv rest p.1 p.2) (ld + p.2))
      (fun _ _ => rfl), List.unattach_attach]

theorem below_nil (deg i lv : Nat) (rest : Nat → Nat) (ld : Nat) (h : deg ≤ ld) : below deg i lv rest ld = [] := by
  rw [below_eq, show pairs deg ld lv = [] by
    unfold pairs
    rw [show deg - ld = 0 by omega]
    simp]
  rfl

theorem mem_items (i : Nat) (rest : Nat → Nat) (L : Nat) (e : Nat → Nat) :
    e ∈ items i rest L ↔ ∃ t, t < L ∧ e = addv rest i (t + 1) := by
  unfold items
  simp only [List.mem_map, List.mem_range]
  constructor
  · rintro ⟨t, h, rfl⟩; exact ⟨t, h, rfl⟩
  · rintro ⟨t, h, rfl⟩; exact ⟨t, h, rfl⟩

theorem nodup_items (i : Nat) (rest : Nat → Nat) (L : Nat) : (items i rest L).Nodup := by
  unfold items
  refine List.Nodup.map ?_ List.nodup_range
  intro a b h
  have := congrFun h i
  simp [addv] at this
  exact this

/-- A nonzero vector with entries only below `lv` has a largest variable. -/
theorem largest (lv : Nat) (s : Nat → Nat) (h0 : ∀ w, lv ≤ w → s w = 0) (h1 : ∃ w, s w ≠ 0) :
    ∃ v, v < lv ∧ s v ≠ 0 ∧ ∀ w, v < w → s w = 0 := by
  induction lv with
  | zero => obtain ⟨w, h⟩ := h1; exact absurd (h0 w (Nat.zero_le _)) h
  | succ lv ih =>
    by_cases h : s lv = 0
    · obtain ⟨v, hv, h2, h3⟩ := ih (fun w hw => by
        rcases Nat.eq_or_lt_of_le hw with e | e
        · subst e; exact h
        · exact h0 w e)
      exact ⟨v, by omega, h2, h3⟩
    · exact ⟨lv, by omega, h, fun w hw => h0 w hw⟩

theorem sum_cut (s : Nat → Nat) (v lv : Nat) (hv : v < lv) (h : ∀ w, v < w → s w = 0) :
    ∑ w ∈ Finset.range lv, s w = ∑ w ∈ Finset.range v, s w + s v := by
  rw [← Finset.sum_range_succ]
  symm
  apply Finset.sum_subset
  · intro w hw; simp at hw ⊢; omega
  · intro w _ hw; simp at hw; exact h w (by omega)

theorem mem_below (deg i lv : Nat) (rest : Nat → Nat) (ld : Nat) (e : Nat → Nat) :
    e ∈ below deg i lv rest ld ↔ ∃ s : Nat → Nat, ∃ t, (∀ w, lv ≤ w → s w = 0) ∧ (∃ w, s w ≠ 0) ∧
      e = addv (fun w => rest w + s w) i (t + 1) ∧ ld + ∑ w ∈ Finset.range lv, s w + t ≤ deg := by
  induction lv using Nat.strongRecOn generalizing rest ld e with
  | ind lv ih =>
    rw [below_eq]
    simp only [List.mem_flatMap, List.mem_append, Prod.exists, mem_pairs, mem_items]
    constructor
    · rintro ⟨v, d, ⟨hv, hd, hle⟩, ⟨t, ht, rfl⟩ | hb⟩
      · refine ⟨fun w => if w = v then d else 0, t, ?_, ⟨v, by simp; omega⟩, rfl, ?_⟩
        · intro w hw; simp; omega
        · rw [Finset.sum_ite_eq' ]; simp [hv]; omega
      · obtain ⟨s, t, h0, ⟨u, hu⟩, rfl, hsum⟩ := (ih v hv _ _ _).1 hb
        have hsv : s v = 0 := h0 v le_rfl
        refine ⟨fun w => s w + if w = v then d else 0, t, ?_, ⟨u, by simp [hu]⟩, ?_, ?_⟩
        · intro w hw
          have : w ≠ v := by omega
          simp [this, h0 w (by omega)]
        · funext w; simp only [addv]; omega
        · rw [sum_cut _ v lv hv (fun w hw => by simp [h0 w (by omega)]; omega)]
          have : ∑ w ∈ Finset.range v, (s w + if w = v then d else 0) = ∑ w ∈ Finset.range v, s w := by
            apply Finset.sum_congr rfl
            intro w hw
            have : w ≠ v := by simp at hw; omega
            simp [this]
          rw [this]
          simp [hsv]; omega
    · rintro ⟨s, t, h0, h1, rfl, hsum⟩
      obtain ⟨v, hv, h2, h3⟩ := largest lv s h0 h1
      rw [sum_cut s v lv hv h3] at hsum
      refine ⟨v, s v, ⟨hv, by omega, by omega⟩, ?_⟩
      by_cases hz : ∀ w, w < v → s w = 0
      · left
        refine ⟨t, ?_, ?_⟩
        · omega
        · congr 1
          funext w
          simp only [addv]
          rcases Nat.lt_trichotomy w v with h | h | h
          · simp [hz w h]; omega
          · subst h; simp
          · simp [h3 w h]; omega
      · right
        push Not at hz
        obtain ⟨u, hu, hsu⟩ := hz
        refine (ih v hv _ _ _).2 ⟨fun w => if w < v then s w else 0, t, ?_, ⟨u, by simp [hu, hsu]⟩, ?_, ?_⟩
        · intro w hw; simp; omega
        · congr 1
          funext w
          simp only [addv]
          rcases Nat.lt_trichotomy w v with h | h | h
          · have : w ≠ v := by omega
            simp [h, this]
          · subst h; simp
          · have h4 : w ≠ v := by omega
            have h5 : ¬ w < v := by omega
            simp [h3 w h, h4, h5]
        · have : ∑ w ∈ Finset.range v, (if w < v then s w else 0) = ∑ w ∈ Finset.range v, s w := by
            apply Finset.sum_congr rfl
            intro w hw
            simp at hw
            simp [hw]
          rw [this]; omega

/-- What the members below a factor `(v, d)` look like. -/
theorem child_form (deg i lv : Nat) (hi : lv ≤ i) (rest : Nat → Nat) (ld v d : Nat) (hv : v < lv)
    (e : Nat → Nat)
    (h : e ∈ items i (addv rest v d) (deg + 1 - ld - d) ++ below deg i v (addv rest v d) (ld + d)) :
    e v = rest v + d ∧ ∀ w, v < w → w < lv → e w = rest w := by
  have hvi : v ≠ i := by omega
  rw [List.mem_append, mem_items, mem_below] at h
  rcases h with ⟨t, _, rfl⟩ | ⟨s, t, h0, _, rfl, _⟩
  · refine ⟨by simp [addv, hvi], fun w h1 h2 => ?_⟩
    have h3 : w ≠ i := by omega
    have h4 : w ≠ v := by omega
    simp [addv, h3, h4]
  · refine ⟨by simp [addv, hvi, h0 v le_rfl], fun w h1 h2 => ?_⟩
    have h3 : w ≠ i := by omega
    have h4 : w ≠ v := by omega
    simp [addv, h3, h4, h0 w (by omega)]

theorem nodup_below (deg i lv : Nat) (hi : lv ≤ i) (rest : Nat → Nat) (ld : Nat) :
    (below deg i lv rest ld).Nodup := by
  induction lv using Nat.strongRecOn generalizing rest ld with
  | ind lv ih =>
    rw [below_eq, List.nodup_flatMap]
    constructor
    · rintro ⟨v, d⟩ hp
      obtain ⟨hv, _⟩ := (mem_pairs _ _ _ _ _).1 hp
      rw [List.nodup_append']
      refine ⟨nodup_items _ _ _, ih v hv (by omega) _ _, ?_⟩
      intro e h1 h2
      obtain ⟨t, _, rfl⟩ := (mem_items _ _ _ _).1 h1
      obtain ⟨s, t', h0, ⟨u, hu⟩, he, _⟩ := (mem_below _ _ _ _ _ _).1 h2
      have huv : u < v := by
        by_contra hc
        exact hu (h0 u (by omega))
      have := congrFun he u
      have h3 : u ≠ i := by omega
      simp [addv, h3] at this
      omega
    · refine List.Nodup.pairwise_of_forall_ne (nodup_pairs _ _ _) ?_
      rintro ⟨v, d⟩ hp ⟨v', d'⟩ hp' hne e h1 h2
      obtain ⟨hv, hd, _⟩ := (mem_pairs _ _ _ _ _).1 hp
      obtain ⟨hv', hd', _⟩ := (mem_pairs _ _ _ _ _).1 hp'
      obtain ⟨a1, a2⟩ := child_form deg i lv hi rest ld v d hv e h1
      obtain ⟨b1, b2⟩ := child_form deg i lv hi rest ld v' d' hv' e h2
      rcases Nat.lt_trichotomy v v' with h | h | h
      · have := a2 v' h hv'; omega
      · subst h
        exact hne (by rw [Prod.mk.injEq]; exact ⟨rfl, by omega⟩)
      · have := b2 v h hv; omega

/-- The constant function and the functions of one variable. -/
def base (deg n : Nat) : List (Nat → Nat) :=
  (fun _ => 0) :: (List.range n).flatMap fun v => items v (fun _ => 0) deg

/-- All products. -/
def total (deg n : Nat) : List (Nat → Nat) :=
  base deg n ++ (List.range n).flatMap fun i => below deg i i (fun _ => 0) 1

/-- The members with largest variable `i`. -/
theorem mem_lead (deg i : Nat) (e : Nat → Nat) :
    e ∈ items i (fun _ => 0) deg ++ below deg i i (fun _ => 0) 1 ↔
      e i ≠ 0 ∧ (∀ w, i < w → e w = 0) ∧ ∑ w ∈ Finset.range (i + 1), e w ≤ deg := by
  rw [List.mem_append, mem_items, mem_below]
  constructor
  · rintro (⟨t, ht, rfl⟩ | ⟨s, t, h0, _, rfl, hs⟩)
    · refine ⟨by simp [addv], fun w hw => by simp [addv]; omega, ?_⟩
      simp only [addv, zero_add]
      rw [Finset.sum_ite_eq']; simp; omega
    · refine ⟨by simp [addv], fun w hw => ?_, ?_⟩
      · have : w ≠ i := by omega
        simp [addv, this, h0 w (by omega)]
      · rw [Finset.sum_range_succ]
        have : ∑ w ∈ Finset.range i, addv (fun w => 0 + s w) i (t + 1) w = ∑ w ∈ Finset.range i, s w := by
          apply Finset.sum_congr rfl
          intro w hw
          have : w ≠ i := by simp at hw; omega
          simp [addv, this]
        rw [this]
        simp [addv, h0 i le_rfl]; omega
  · rintro ⟨h1, h2, h3⟩
    rw [Finset.sum_range_succ] at h3
    have key : e = addv (fun w => 0 + if w < i then e w else 0) i (e i - 1 + 1) := by
      funext w
      simp only [addv, zero_add]
      rcases Nat.lt_trichotomy w i with h | h | h
      · have : w ≠ i := by omega
        simp [h, this]
      · subst h; simp; omega
      · have h4 : w ≠ i := by omega
        have h5 : ¬ w < i := by omega
        simp [h2 w h, h4, h5]
    by_cases hz : ∀ w, w < i → e w = 0
    · left
      refine ⟨e i - 1, ?_, ?_⟩
      · omega
      · conv => lhs; rw [key]
        congr 1
        funext w
        simp
        exact hz w
    · right
      push Not at hz
      obtain ⟨u, hu, hsu⟩ := hz
      refine ⟨fun w => if w < i then e w else 0, e i - 1, ?_, ⟨u, by simp [hu, hsu]⟩, key, ?_⟩
      · intro w hw; simp; omega
      · have : ∑ w ∈ Finset.range i, (if w < i then e w else 0) = ∑ w ∈ Finset.range i, e w := by
          apply Finset.sum_congr rfl
          intro w hw
          simp at hw
          simp [hw]
        rw [this]; omega

theorem sum_zero_of (n : Nat) (e : Nat → Nat) (h : ∀ w, n ≤ w → e w = 0) (h0 : ∑ w ∈ Finset.range n, e w = 0) :
    e = fun _ => 0 := by
  funext w
  by_cases hw : w < n
  · exact Finset.sum_eq_zero_iff.1 h0 w (by simpa using hw)
  · exact h w (by omega)

theorem total_perm (deg n : Nat) : (total deg n).Perm ((fun _ => 0) :: (List.range n).flatMap fun i =>
    items i (fun _ => 0) deg ++ below deg i i (fun _ => 0) 1) := by
  unfold total base
  rw [List.cons_append]
  refine List.Perm.cons _ ?_
  generalize List.range n = l
  induction l with
  | nil => simp
  | cons a l ih =>
    simp only [List.flatMap_cons]
    have h1 := ih.append_left (items a (fun _ => 0) deg ++ below deg a a (fun _ => 0) 1)
    refine List.Perm.trans ?_ h1
    simp only [List.append_assoc]
    refine List.Perm.append_left _ ?_
    simp only [← List.append_assoc]
    exact List.Perm.append_right _ List.perm_append_comm

theorem mem_total (deg n : Nat) (e : Nat → Nat) :
    e ∈ total deg n ↔ (∀ w, n ≤ w → e w = 0) ∧ ∑ w ∈ Finset.range n, e w ≤ deg := by
  rw [(total_perm deg n).mem_iff, List.mem_cons, List.mem_flatMap]
  simp only [mem_lead, List.mem_range]
  constructor
  · rintro (rfl | ⟨i, hi, h1, h2, h3⟩)
    · simp
    · refine ⟨fun w hw => h2 w (by omega), ?_⟩
      rw [sum_cut e i n hi h2, ← Finset.sum_range_succ]
      exact h3
  · rintro ⟨h1, h2⟩
    by_cases hz : ∃ w, e w ≠ 0
    · obtain ⟨v, hv, h3, h4⟩ := largest n e h1 hz
      refine Or.inr ⟨v, hv, h3, h4, ?_⟩
      rw [Finset.sum_range_succ, ← sum_cut e v n hv h4]
      exact h2
    · left
      push Not at hz
      funext w
      exact hz w

theorem nodup_total (deg n : Nat) : (total deg n).Nodup := by
  rw [(total_perm deg n).nodup_iff, List.nodup_cons]
  constructor
  · rw [List.mem_flatMap]
    rintro ⟨i, _, h⟩
    exact ((mem_lead _ _ _).1 h).1 rfl
  · rw [List.nodup_flatMap]
    constructor
    · intro i _
      rw [List.nodup_append']
      refine ⟨nodup_items _ _ _, nodup_below _ _ _ le_rfl _ _, ?_⟩
      intro e h1 h2
      obtain ⟨t, _, rfl⟩ := (mem_items _ _ _ _).1 h1
      obtain ⟨s, t', h0, ⟨u, hu⟩, he, _⟩ := (mem_below _ _ _ _ _ _).1 h2
      have huv : u < i := by
        by_contra hc
        exact hu (h0 u (by omega))
      have := congrFun he u
      have h3 : u ≠ i := by omega
      simp [addv, h3] at this
      omega
    · refine List.Pairwise.imp ?_ (List.pairwise_lt_range (n := n))
      intro a b hab e ha hb
      rw [mem_lead] at ha hb
      exact hb.1 (ha.2.1 b hab)

/-- The exponents of the variables. -/
def restrict (n : Nat) (e : Nat → Nat) : Fin n → Nat := fun j => e j

theorem restrict_inj (n : Nat) (e e' : Nat → Nat) (h : ∀ w, n ≤ w → e w = 0) (h' : ∀ w, n ≤ w → e' w = 0)
    (he : restrict n e = restrict n e') : e = e' := by
  funext w
  by_cases hw : w < n
  · exact congrFun he ⟨w, hw⟩
  · rw [h w (by omega), h' w (by omega)]

theorem nodup_restrict (deg n : Nat) : ((total deg n).map (restrict n)).Nodup :=
  List.Nodup.map_on (fun a ha b hb h => restrict_inj n a b ((mem_total _ _ _).1 ha).1 ((mem_total _ _ _).1 hb).1 h)
    (nodup_total deg n)

theorem mem_restrict (deg n : Nat) (e : Fin n → Nat) : e ∈ (total deg n).map (restrict n) ↔ ∑ j, e j ≤ deg := by
  rw [List.mem_map]
  constructor
  · rintro ⟨a, ha, rfl⟩
    have := ((mem_total _ _ _).1 ha).2
    rw [Finset.sum_range] at this
    exact this
  · intro h
    refine ⟨fun w => if hw : w < n then e ⟨w, hw⟩ else 0, (mem_total _ _ _).2 ⟨?_, ?_⟩, ?_⟩
    · intro w hw; simp; omega
    · rw [Finset.sum_range]; simpa using h
    · funext j; simp [restrict]

/-- The number of products is `expanded_dim`, plus one. -/
theorem length_total (deg n : Nat) (hd : 1 ≤ deg) :
    ((total deg n).length : Int) = Expansion.expandedDim deg n + 1 := by
  obtain ⟨es, h1, h2, _, h3, _⟩ := Expansion.poly_expansion deg n hd
  have hp : ((total deg n).map (restrict n)).Perm ((fun _ => 0) :: es) := by
    rw [List.perm_ext_iff_of_nodup (nodup_restrict deg n)]
    · intro e
      rw [mem_restrict, List.mem_cons, h2]
      constructor
      · intro h
        by_cases h0 : ∑ j, e j = 0
        · left
          funext j
          exact Finset.sum_eq_zero_iff.1 h0 j (Finset.mem_univ _)
        · right; omega
      · rintro (rfl | h)
        · simp
        · exact h.2
    · rw [List.nodup_cons]
      refine ⟨fun h => ?_, h1⟩
      have := ((h2 _).1 h).1
      simp at this
  have := hp.length_eq
  rw [List.length_map, List.length_cons] at this
  rw [this, ← h3]; simp

end Mdp.RecExp
