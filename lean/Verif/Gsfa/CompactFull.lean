import Verif.Gsfa.Compact

/-!
# Compact classes with as many labels as classes

`update_compact_classes` (gsfa_nodes.py:1152-1236) accepts `Jdes = 2 ** J`. The digits of the additional labels then include
zero, whose label is `-1` for all samples (lines 1211-1217). The selection `labels[:, j] == -1` (1229) is the whole data, which
`update_clustered_homogeneous_block_sizes` with `block_size=N // 2` cuts in the middle, and the selection `== 1` is empty. No
definitions are added to the model of `Gsfa/Compact.lean`.
-/

namespace Mdp.Gsfa

open Mdp.Cov Finset Py

variable {F : Type} [Field F] {d : Nat}

theorem bitSet_none (J : Nat) : bitSet J 0 = ∅ := by
  unfold bitSet; simp

/-- The digits for `2 ^ J` labels: those for one label less, then zero. -/
theorem digits_full {argsort : List Int → List Nat} (hs : Argsort argsort) (J : Nat) (h0 : 0 < J) :
    ∃ digits : List Nat, digits.length = 2 ^ J - 1 - J ∧
      extraDigits argsort J (2 ^ J) (2 ^ J - J) = .ok (digits ++ [0]) ∧ (∀ n ∈ digits, n < 2 ^ J) ∧
      Labels J (2 ^ J - 1) fun t => if t < J then {J - 1 - t} else bitSet J (digits.getD (t - J) 0) := by
  have hJ2 : J < 2 ^ J := Nat.lt_two_pow_self
  obtain ⟨digits, hlen, hdig, hlt, hlab⟩ := labels_exist hs J (2 ^ J - 1) (by omega) (by omega)
  obtain ⟨q, hp, -, hq⟩ := ordered hs J
  have hql : q.length = 2 ^ J - J := by rw [hp.length_eq, free_length]
  have e1 := hq (2 ^ J - 1 - J) (by omega)
  rw [hdig] at e1
  have e2 : digits = q.take (2 ^ J - 1 - J) := by injection e1
  have hz : (0 : Nat) ∈ q := by
    rw [hp.mem_iff, free_mem]
    exact ⟨by positivity, fun k _ => (by positivity : (0 : Nat) < 2 ^ k).ne⟩
  have hnz : (0 : Nat) ∉ digits := by
    intro hm
    obtain ⟨t, ht, h⟩ := List.mem_iff_getElem.1 hm
    have := hlab.nonempty (t + J) (by omega)
    simp only [if_neg (show ¬ t + J < J by omega), Nat.add_sub_cancel] at this
    rw [List.getD, List.getElem?_eq_getElem ht, Option.getD_some, h, bitSet_none] at this
    exact not_nonempty_empty this
  have hd : q = digits ++ q.drop (2 ^ J - 1 - J) := by rw [e2, List.take_append_drop]
  have hl : (q.drop (2 ^ J - 1 - J)).length = 1 := by rw [List.length_drop]; omega
  obtain ⟨z, hz'⟩ := List.length_eq_one_iff.1 hl
  rw [hz'] at hd
  have hz0 : z = 0 := by
    rw [hd, List.mem_append, List.mem_singleton] at hz
    rcases hz with h | h
    · exact absurd h hnz
    · exact h.symm
  refine ⟨digits, hlen, ?_, hlt, hlab⟩
  rw [hq _ le_rfl, ← hql, List.take_length, hd, hz0]

theorem compactLoop_append (x : Rows F d) (r s : List ((Nat → Int) × F)) (a b : Acc F d)
    (h : compactLoop x r a = (.ok (), b)) : compactLoop x (r ++ s) a = compactLoop x s b := by
  induction r generalizing a with
  | nil => cases h; rfl
  | cons t r ih =>
    obtain ⟨l, w⟩ := t
    simp only [List.cons_append, compactLoop, M.bind_def] at h ⊢
    rcases h1 : updateClusteredInt (x.pick l (-1)) w (x.n / 2) true a with ⟨r1, a1⟩
    rw [h1] at h
    cases r1 with
    | error e => cases h
    | ok u =>
      simp only at h ⊢
      rcases h2 : updateClusteredInt (x.pick l 1) w (x.n / 2) true a1 with ⟨r2, a2⟩
      rw [h2] at h
      cases r2 with
      | error e => cases h
      | ok u =>
        simp only at h ⊢
        exact ih a2 h

/-- A label that is `-1` everywhere: the data are cut in the middle. -/
theorem const_adds [CharZero F] (x : Rows F d) (hx : 0 < x.n) (h2 : 2 ∣ x.n) (l : Nat → Int) (hl : ∀ i, l i = -1) (w : F)
    (a : Acc F d) : ∃ a', compactLoop x [(l, w)] a = (.ok (), a') ∧
      Adds a a' x (fun _ => w) (fun i j => 2 / (x.n : F) * if i / (x.n / 2) = j / (x.n / 2) then w else 0) := by
  have hb : 0 < x.n / 2 := Nat.div_pos (Nat.le_of_dvd hx h2) (by decide)
  have hlist : ((List.range x.n).filter fun i => l i = -1) = List.range x.n :=
    List.filter_eq_self.2 fun i _ => by simp [hl i]
  have hn : (x.pick l (-1)).n = x.n := by
    change ((List.range x.n).filter fun i => l i = -1).length = _
    rw [hlist, List.length_range]
  have hrow : ∀ i < x.n, ∀ k, (x.pick l (-1)).row i k = x.row i k := by
    intro i hi k
    change x.row (((List.range x.n).filter fun i => l i = -1).getD i 0) k = _
    rw [hlist]
    simp [List.getD, hi]
  have hn' : (x.pick l 1).n = 0 := by
    change ((List.range x.n).filter fun i => l i = 1).length = _
    rw [List.length_eq_zero_iff, List.filter_eq_nil_iff]
    intro i _
    simp [hl i]
  obtain ⟨b, h3, h4⟩ := clustered_graph (x.pick l (-1)) w (x.n / 2) hb (by rw [hn]; exact Nat.div_dvd_of_dvd h2) a
  obtain ⟨c, h5, h6⟩ := clustered_graph (x.pick l 1) w (x.n / 2) hb (by rw [hn']; exact dvd_zero _) b
  have e : ∀ i j, w * blockEdge (x.n / 2) i j = 2 / (x.n : F) * if i / (x.n / 2) = j / (x.n / 2) then w else 0 := by
    intro i j
    unfold blockEdge
    split_ifs
    · obtain ⟨m, hm⟩ := h2
      have hm0 : (m : F) ≠ 0 := Nat.cast_ne_zero.2 (by omega)
      rw [hm, Nat.mul_div_cancel_left _ (by decide)]
      push_cast
      field_simp
    · simp
  refine ⟨c, by simp only [compactLoop, M.bind_def, h3, h5]; rfl, ⟨fun k => ?_, fun k m => ?_, ?_, fun k m => ?_, ?_,
    h6.some_sums, h6.some_diffs⟩⟩
  · rw [h6.sum, h4.sum, hn', hn, sum_range_zero, add_zero]
    congr 1
    exact sum_congr rfl fun i hi => by rw [hrow i (mem_range.1 hi)]
  · rw [h6.prod, h4.prod, hn', hn, sum_range_zero, add_zero]
    congr 1
    exact sum_congr rfl fun i hi => by rw [hrow i (mem_range.1 hi), hrow i (mem_range.1 hi)]
  · rw [h6.num, h4.num, hn', hn, sum_range_zero, add_zero]
  · rw [h6.diff, h4.diff, hn', hn, sum_range_zero, add_zero]
    congr 1
    refine sum_congr rfl fun i hi => sum_congr rfl fun j hj => ?_
    rw [e]
    congr 1
    unfold sq
    rw [hrow i (mem_range.1 hi), hrow i (mem_range.1 hi), hrow j (mem_range.1 hj), hrow j (mem_range.1 hj)]
  · rw [h6.numDiffs, h4.numDiffs, hn', hn, sum_range_zero, add_zero]
    congr 1
    exact sum_congr rfl fun i _ => sum_congr rfl fun j _ => e i j

/-- Two samples are in the same half of the data exactly if the highest bits of their classes agree. -/
theorem half_iff (J bs i j : Nat) (h0 : 0 < J) (hbs : 0 < bs) (hi : i < 2 ^ J * bs) (hj : j < 2 ^ J * bs) :
    i / (2 ^ J * bs / 2) = j / (2 ^ J * bs / 2) ↔ (OddBits {J - 1} (i / bs) ↔ OddBits {J - 1} (j / bs)) := by
  have hh : 2 ^ J * bs / 2 = bs * 2 ^ (J - 1) := by
    obtain ⟨K, rfl⟩ : ∃ K, J = K + 1 := ⟨J - 1, by omega⟩
    rw [Nat.add_sub_cancel, Nat.pow_succ, show 2 ^ K * 2 * bs = bs * 2 ^ K * 2 by ring, Nat.mul_div_cancel _ (by decide)]
  have hb : ∀ i, i < 2 ^ J * bs → (OddBits {J - 1} (i / bs) ↔ i / (2 ^ J * bs / 2) = 1) ∧ i / (2 ^ J * bs / 2) < 2 := by
    intro i hi
    have h1 : i / (2 ^ J * bs / 2) = i / bs / 2 ^ (J - 1) := by rw [hh, Nat.div_div_eq_div_mul]
    have h2 : i / bs / 2 ^ (J - 1) < 2 := by
      rw [Nat.div_div_eq_div_mul, ← hh]
      rw [Nat.div_lt_iff_lt_mul (by rw [hh]; positivity)]
      have : 2 ∣ 2 ^ J * bs := Dvd.dvd.mul_right (dvd_pow_self 2 (by omega)) _
      omega
    refine ⟨?_, by rw [h1]; exact h2⟩
    rw [h1]
    unfold OddBits
    rw [filter_singleton, Nat.testBit_eq_decide_div_mod_eq, Nat.mod_eq_of_lt h2]
    by_cases h : i / bs / 2 ^ (J - 1) = 1 <;> simp [h]
  obtain ⟨a1, a2⟩ := hb i hi
  obtain ⟨b1, b2⟩ := hb j hj
  rw [a1, b1]
  clear a1 b1 hb
  generalize i / (2 ^ J * bs / 2) = p at *
  generalize j / (2 ^ J * bs / 2) = r at *
  omega

/-- **As many labels as classes**: the first `2 ^ J - 1` labels are as for that number, and the last one repeats the first: it
connects the samples whose classes have the same highest bit. -/
theorem compact_full [CharZero F] {argsort : List Int → List Nat} (hs : Argsort argsort) (J : Nat) (h0 : 0 < J) :
    ∃ D, Labels J (2 ^ J - 1) D ∧ D (2 ^ J - 1) = D 0 ∧ ∀ (x : Rows F d) (bs : Nat), 0 < bs → x.n = 2 ^ J * bs →
      ∀ a : Acc F d, ∃ a', updateCompact argsort x (some (2 ^ J)) (.int bs) a = (.ok (), a') ∧
        Adds a a' x (fun _ => 1) (compactEdge F x.n bs J (2 ^ J) D) := by
  have hJ2 : J < 2 ^ J := Nat.lt_two_pow_self
  obtain ⟨digits, hlen, hdig, hlt, hlab⟩ := digits_full hs J h0
  set D : Nat → Finset Nat := fun t => if t < J then {J - 1 - t} else bitSet J (digits.getD (t - J) 0) with hD
  set E : Nat → Finset Nat := fun t => if t = 2 ^ J - 1 then {J - 1} else D t with hE
  have hED : ∀ t, t < 2 ^ J - 1 → E t = D t := fun t ht => by rw [hE]; simp only [if_neg (show ¬ t = 2 ^ J - 1 by omega)]
  have hElab : Labels J (2 ^ J - 1) E := by
    refine ⟨fun t ht => ?_, fun t ht => ?_, fun t ht u hu h => ?_, fun t ht => ?_, fun t h1 h2 S hS hn hne => ?_⟩
    · rw [hED t ht]; exact hlab.sub t ht
    · rw [hED t ht]; exact hlab.nonempty t ht
    · rw [hED t ht, hED u hu] at h; exact hlab.inj t ht u hu h
    · rw [hED t (by omega)]; exact hlab.first t ht
    · rw [hED t h2]
      exact hlab.more t h1 h2 S hS hn fun u hu => by rw [← hED u (by omega)]; exact hne u hu
  refine ⟨E, hElab, ?_, fun x bs hbs hn a => ?_⟩
  · rw [hED 0 (by omega), hD]; simp [hE, h0]
  have hx : 0 < x.n := by rw [hn]; positivity
  let lab : Nat → Nat → Int := fun t => if t < J then baseLabel bs J t else extraLabel bs J (digits.getD (t - J) 0)
  have hl : (List.range J).map (baseLabel bs J) ++ digits.map (extraLabel bs J) = (List.range (2 ^ J - 1)).map lab := by
    refine List.ext_getElem (by simp [hlen]; omega) fun t h1 h2 => ?_
    rw [List.getElem_append]
    simp only [List.length_map, List.length_range, List.getElem_map, List.getElem_range]
    by_cases h : t < J
    · rw [dif_pos h]; simp only [lab, if_pos h]
    · rw [dif_neg h]
      simp only [lab, if_neg h]
      have h3 : t - J < digits.length := by
        rw [List.length_map, List.length_range] at h2; omega
      simp [List.getD, h3]
  let wt : Nat → F := fun t => labelWeight F J (2 ^ J) t / ∑ t ∈ range (2 ^ J), labelWeight F J (2 ^ J) t
  have hw : eigenvalues F J (2 ^ J - J) = (List.range (2 ^ J - 1)).map wt ++ [wt (2 ^ J - 1)] := by
    have e : (List.range (2 ^ J - 1)).map wt ++ [wt (2 ^ J - 1)] = (List.range (2 ^ J)).map wt := by
      conv_rhs => rw [show 2 ^ J = (2 ^ J - 1) + 1 by omega, List.range_succ, List.map_append]
      rfl
    rw [e]
    unfold eigenvalues
    simp only
    rw [weights_list J (2 ^ J) h0 (by omega), range_map_sum, List.map_map]
    rfl
  have hsign : ∀ t < 2 ^ J - 1, ∀ i, lab t i = if OddBits (E t) (i / bs) then 1 else -1 := by
    intro t ht i
    rw [hED t ht]
    by_cases h : t < J
    · simp only [lab, hD, if_pos h]
      exact base_label bs J t i h
    · simp only [lab, hD, if_neg h]
      refine extra_label bs J _ i (hlt _ ?_)
      have h3 : t - J < digits.length := by omega
      simp [List.getD, h3]
  obtain ⟨b, h1, h2⟩ := loop_adds x hx ((List.range (2 ^ J - 1)).map fun t => (lab t, wt t))
    (by intro hnil; rw [List.map_eq_nil_iff, List.range_eq_nil] at hnil; omega) (by
      intro t ht
      rw [List.mem_map] at ht
      obtain ⟨t, ht, rfl⟩ := ht
      rw [List.mem_range] at ht
      rw [hn]
      exact halves bs J hbs _ (hElab.sub t ht) (hElab.nonempty t ht) _ (hsign t ht)) a
  have h2n : 2 ∣ x.n := by rw [hn]; exact Dvd.dvd.mul_right (dvd_pow_self 2 (by omega)) _
  obtain ⟨c, h3, h4⟩ := const_adds x hx h2n (extraLabel bs J 0) (by
    intro i
    rw [extra_label bs J 0 i (by positivity), bitSet_none]
    simp [OddBits]) (wt (2 ^ J - 1)) b
  refine ⟨c, ?_, (h2.trans h4).congr ?_ ?_⟩
  · simp only [updateCompact, updateCompactInt, if_neg (show ¬ bs = 0 by omega), hn, Nat.mul_mod_left, ne_eq, not_true, if_false,
      Nat.mul_div_cancel _ hbs, Nat.log_pow (show 1 < 2 by decide), Option.getD_some, if_neg (show ¬ 2 ^ J < J by omega),
      if_neg (show ¬ 2 ^ J = 0 by positivity), hdig, List.map_append, List.map_cons, List.map_nil]
    rw [← List.append_assoc, hl, hw, List.zip_append (by simp), List.zip_map']
    rw [compactLoop_append x _ _ a b h1]
    exact h3
  · intro i _
    rw [List.map_map, range_map_sum]
    simp only [Function.comp]
    rw [← sum_range_succ, show 2 ^ J - 1 + 1 = 2 ^ J by omega, ← sum_div, div_self (weights_sum J (2 ^ J) h0 (by omega))]
  · intro i hi j hj
    rw [List.map_map, range_map_sum]
    unfold compactEdge
    rw [← mul_add]
    congr 1
    have key : ∀ t, (if OddBits (E t) (i / bs) ↔ OddBits (E t) (j / bs) then labelWeight F J (2 ^ J) t else 0) /
        (∑ t ∈ range (2 ^ J), labelWeight F J (2 ^ J) t) =
        if OddBits (E t) (i / bs) ↔ OddBits (E t) (j / bs) then wt t else 0 := by
      intro t
      split_ifs
      · rfl
      · rw [zero_div]
    rw [sum_div, sum_congr rfl fun t _ => key t]
    conv_rhs => rw [show 2 ^ J = (2 ^ J - 1) + 1 by omega, sum_range_succ]
    congr 1
    · refine sum_congr rfl fun t ht => ?_
      have ht' := mem_range.1 ht
      simp only [Function.comp]
      rw [hsign t ht' i, hsign t ht' j]
      by_cases hi : OddBits (E t) (i / bs) <;> by_cases hj : OddBits (E t) (j / bs) <;> simp [hi, hj]
    · rw [hn] at hi hj ⊢
      have hlast : E (2 ^ J - 1) = {J - 1} := by simp [hE]
      rw [hlast]
      exact if_congr (half_iff J bs i j h0 hbs hi hj) rfl rfl

/-- **The labels are then not different** (the full claim would give each of the `L` labels its own set of bits). -/
theorem compact_full_violation (J : Nat) (h0 : 0 < J) : ¬ ∃ D, Labels J (2 ^ J) D := by
  rintro ⟨D, hD⟩
  have h1 : (range (2 ^ J)).image D ⊆ (range J).powerset.erase ∅ := by
    intro s hs
    rw [mem_image] at hs
    obtain ⟨t, ht, rfl⟩ := hs
    rw [mem_erase, mem_powerset]
    exact ⟨(hD.nonempty t (mem_range.1 ht)).ne_empty, hD.sub t (mem_range.1 ht)⟩
  have h2 := card_le_card h1
  rw [card_image_of_injOn (fun t ht u hu h => hD.inj t (mem_range.1 (mem_coe.1 ht)) u (mem_range.1 (mem_coe.1 hu)) h),
    card_range, card_erase_of_mem (empty_mem_powerset _), card_powerset, card_range] at h2
  have : 0 < 2 ^ J := by positivity
  omega

/-- Four classes of two samples and four labels. -/
example : ∃ D, Labels 2 3 D ∧ D 3 = {1} ∧ ∃ a', updateCompact exArgsort (⟨8, fun i _ => (i : ℚ)⟩ : Rows ℚ 1) (some 4) (.int 2)
    Acc.new = (.ok (), a') ∧ a'.num = 8 ∧ a'.diffs.isSome := by
  obtain ⟨D, h, h', h2⟩ := compact_full (F := ℚ) (d := 1) exArgsort_spec 2 (by decide)
  obtain ⟨a', h3, h4⟩ := h2 ⟨8, fun i _ => (i : ℚ)⟩ 2 (by decide) rfl Acc.new
  refine ⟨D, h, by have := h.first 0 (by decide); rw [show (3 : Nat) = 2 ^ 2 - 1 from rfl, h', this], a', h3, ?_, h4.some_diffs⟩
  rw [h4.num]; norm_num [Acc.new]

end Mdp.Gsfa
