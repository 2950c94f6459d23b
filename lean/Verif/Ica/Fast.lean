import Verif.Ica.FastModel
import Verif.Ica.Jade

/-!
# Theorems about `FastICANode.core`
-/

namespace Mdp.Ica

open Matrix

variable {m : Nat}

/-! ## The numbers of the nonlinearities -/

/-- The numbers of the branches. -/
def Valid (used : Nat) : Prop := used / 10 ∈ [1, 2, 3, 4] ∧ used % 10 < 4

theorem decode_valid {used : Nat} (h : Valid used) : ∃ r, decode used = some r := by
  obtain ⟨h1, h2⟩ := h
  have h3 : used = 10 * (used / 10) + used % 10 := (Nat.div_add_mod used 10).symm
  generalize used / 10 = a at *
  generalize used % 10 = b at *
  subst h3
  simp only [List.mem_cons, List.not_mem_nil, or_false] at h1
  rcases h1 with rfl | rfl | rfl | rfl <;> interval_cases b <;> exact ⟨_, rfl⟩

theorem gOrig_valid (c : FCfg) : Valid c.gOrig := by
  simp only [FCfg.gOrig, Valid]
  cases c.g <;> simp only [Nl.code] <;> split_ifs <;> decide

theorem gFine_valid (c : FCfg) : Valid c.gFine := by
  simp only [FCfg.gFine]
  cases h : c.fineG with
  | some n => cases n <;> simp only [Nl.code, Valid] <;> decide
  | none =>
    simp only
    split_ifs with h1
    · simp only [FCfg.gOrig, h1, Valid]
      cases c.g <;> simp only [Nl.code] <;> split_ifs <;> first | decide | contradiction
    · exact gOrig_valid c

theorem valid_up {u : Nat} (h : Valid u) : Valid (if u % 2 = 0 then u + 1 else u) := by
  obtain ⟨h1, h2⟩ := h
  simp only [List.mem_cons, List.not_mem_nil, or_false] at h1
  simp only [Valid, List.mem_cons, List.not_mem_nil, or_false]
  split_ifs <;> omega

theorem valid_down {u : Nat} {p : Prop} [Decidable p] (h : Valid u) : Valid (if p ∧ u % 2 ≠ 0 then u - 1 else u) := by
  obtain ⟨h1, h2⟩ := h
  simp only [List.mem_cons, List.not_mem_nil, or_false] at h1
  simp only [Valid, List.mem_cons, List.not_mem_nil, or_false]
  split_ifs <;> omega

theorem damp_fields (c : FCfg) (s : CSt m) : ∃ mu stroke used lng, s.damp c = { s with mu := mu, stroke := stroke, used := used, lng := lng } ∧
    (Valid s.used → Valid used) := by
  simp only [CSt.damp]
  by_cases h1 : c.stab
  · rw [if_pos h1]
    by_cases h2 : s.stroke = 0 ∧ below (dist s.w s.wOldF) c.limit
    · rw [if_pos h2]; exact ⟨_, _, _, _, rfl, valid_up⟩
    · rw [if_neg h2]
      by_cases h3 : s.stroke ≠ 0
      · rw [if_pos h3]; exact ⟨_, _, _, _, rfl, valid_down⟩
      · rw [if_neg h3]
        by_cases h4 : s.lng = false ∧ c.maxIt / 2 < s.i
        · rw [if_pos h4]; exact ⟨_, _, _, _, rfl, valid_up⟩
        · rw [if_neg h4]; exact ⟨_, _, _, _, rfl, id⟩
  · rw [if_neg h1]; exact ⟨_, _, _, _, rfl, id⟩

/-- What the step makes of a vector. -/
theorem step_ok (c : FCfg) (x : List (Vec m)) (draw : Nat → List (Vec m)) {s : CSt m} (h : Valid s.used) :
    ∃ w', s.step c x draw = .ok { s with wOldF := s.wOld, wOld := s.w, w := w', i := s.i + 1 } ∧ (s.w = none → w' = none) := by
  obtain ⟨⟨n, sub, st⟩, hd⟩ := decode_valid h
  simp only [CSt.step, hd]
  exact ⟨_, rfl, fun h => by rw [h]; rfl⟩

/-- The cases of an iteration. -/
theorem iter_cases (c : FCfg) (x : List (Vec m)) (draw : Nat → List (Vec m)) (q : Matrix (Fin m) (Fin m) ℝ) (round : Nat) {s : CSt m}
    (hs : Valid s.used) :
    (c.maxIt + s.gabba < s.i ∧ s.iter c x draw q round = .ok (.inr (.over, s.conv))) ∨
    (s.i ≤ c.maxIt + s.gabba ∧
      ((s.fine = false ∧ s.i = c.maxIt + 1 ∧ s.iter c x draw q round = .ok (.inr (.failed, s.conv))) ∨
      (¬ (s.fine = false ∧ s.i = c.maxIt + 1) ∧
        ((below (dist (s.test q).w (s.test q).wOld) c.limit ∧ c.fineG.isSome ∧ s.fine = false ∧
          ∃ w', s.iter c x draw q round = .ok (.inl { ((s.test q).tune c) with
            wOldF := some 0, wOld := (s.test q).w, w := w', i := s.i + 1 })) ∨
        (below (dist (s.test q).w (s.test q).wOld) c.limit ∧ ¬ (c.fineG.isSome ∧ s.fine = false) ∧
          ∃ w, project q s.w = some w ∧ s.iter c x draw q round =
            .ok (.inr (.found w, (s.test q).conv.set round (dist (s.test q).w (s.test q).wOld)))) ∨
        (¬ below (dist (s.test q).w (s.test q).wOld) c.limit ∧ ∃ w' mu stroke used lng, Valid used ∧ ((s.test q).w = none → w' = none) ∧
          s.iter c x draw q round = .ok (.inl { (s.test q) with
            wOldF := (s.test q).wOld, wOld := (s.test q).w, w := w', i := s.i + 1, mu := mu, stroke := stroke, used := used, lng := lng })))))) := by
  by_cases h1 : s.i ≤ c.maxIt + s.gabba
  · right
    refine ⟨h1, ?_⟩
    by_cases h2 : s.fine = false ∧ s.i = c.maxIt + 1
    · left; exact ⟨h2.1, h2.2, by rw [CSt.iter, if_pos h1, if_pos h2]⟩
    · right
      refine ⟨h2, ?_⟩
      by_cases h3 : below (dist (s.test q).w (s.test q).wOld) c.limit
      · by_cases h4 : c.fineG.isSome ∧ s.fine = false
        · left
          obtain ⟨w', e, _⟩ := step_ok c x draw (s := (s.test q).tune c) (gFine_valid c)
          refine ⟨h3, h4.1, h4.2, w', ?_⟩
          have h4' : c.fineG.isSome ∧ (s.test q).fine = false := h4
          simp only [CSt.iter, h1, if_true]
          rw [if_neg h2, if_pos h3, if_pos h4', e]
          rfl
        · right; left
          obtain ⟨r, hr, _⟩ := id h3
          cases hw : project q s.w with
          | none => 
            have : (s.test q).w = none := hw
            rw [this] at hr; simp [dist] at hr
          | some w =>
            refine ⟨h3, h4, w, rfl, ?_⟩
            have h4' : ¬ (c.fineG.isSome ∧ (s.test q).fine = false) := h4
            have hw' : (s.test q).w = some w := hw
            simp only [CSt.iter, h1, if_true]
            rw [if_neg h2, if_pos h3, if_neg h4', hw']
      · right; right
        obtain ⟨mu, stroke, used, lng, e, hv⟩ := damp_fields c (s.test q)
        obtain ⟨w', e', hn⟩ := step_ok c x draw (s := (s.test q).damp c) (by rw [e]; exact hv hs)
        rw [e] at e' hn
        refine ⟨h3, w', mu, stroke, used, lng, hv hs, hn, ?_⟩
        simp only [CSt.iter, h1, if_true]
        rw [if_neg h2, if_neg h3, e, e']
        rfl
  · left
    exact ⟨not_le.1 h1, by rw [CSt.iter, if_neg h1]⟩

/-! ## The loop for a component -/

theorem test_none {q : Matrix (Fin m) (Fin m) ℝ} {s : CSt m} (h : s.w = none) : (s.test q).w = none ∧
    dist (s.test q).w (s.test q).wOld = none := by
  have : (s.test q).w = none := by simp only [CSt.test, h]; rfl
  exact ⟨this, by rw [this]; rfl⟩

/-- No component stops with an unknown nonlinearity. -/
theorem run_total (c : FCfg) (x : List (Vec m)) (draw : Nat → List (Vec m)) (q : Matrix (Fin m) (Fin m) ℝ) (round n : Nat) :
    ∀ s : CSt m, Valid s.used → ∃ r, s.run c x draw q round n = .ok r := by
  induction n with
  | zero => exact fun s _ => ⟨_, rfl⟩
  | succ n ih =>
    intro s hs
    simp only [CSt.run]
    rcases iter_cases c x draw q round hs with ⟨_, e⟩ | ⟨_, ⟨_, _, e⟩ | ⟨_, ⟨_, _, _, w', e⟩ | ⟨_, _, w, _, e⟩ | ⟨_, w', mu, st, u, l, hu, _, e⟩⟩⟩ <;>
      rw [e]
    · exact ⟨_, rfl⟩
    · exact ⟨_, rfl⟩
    · exact ih _ (gFine_valid c)
    · exact ⟨_, rfl⟩
    · exact ih _ hu

/-- The number of iterations that the model makes is enough: with more of them nothing changes. -/
theorem run_fuel (c : FCfg) (x : List (Vec m)) (draw : Nat → List (Vec m)) (q : Matrix (Fin m) (Fin m) ℝ) (round n : Nat) :
    ∀ s : CSt m, Valid s.used → (s.gabba ≤ 1 ∨ s.gabba ≤ c.maxItFine) → c.maxIt + max 1 c.maxItFine < s.i + n →
      s.run c x draw q round (n + 1) = s.run c x draw q round n := by
  induction n with
  | zero =>
    intro s hs hg hi
    simp only [CSt.run]
    rcases iter_cases c x draw q round hs with ⟨_, e⟩ | ⟨h, _⟩
    · rw [e]
    · rcases hg with hg | hg
      · have := le_max_left 1 c.maxItFine; omega
      · have := le_max_right 1 c.maxItFine; omega
  | succ n ih =>
    intro s hs hg hi
    rw [CSt.run, CSt.run.eq_2 c x draw q round s n]
    rcases iter_cases c x draw q round hs with ⟨_, e⟩ | ⟨_, ⟨_, _, e⟩ | ⟨_, ⟨_, _, _, w', e⟩ | ⟨_, _, w, _, e⟩ | ⟨_, w', mu, st, u, l, hu, _, e⟩⟩⟩ <;>
      rw [e]
    · exact ih _ (gFine_valid c) (.inr le_rfl) (by simp only; omega)
    · exact ih _ hu hg (by simp only; omega)

/-- A component that is found is a projected vector; the last convergence value is below the limit. -/
theorem run_found {c : FCfg} {x : List (Vec m)} {draw : Nat → List (Vec m)} {q : Matrix (Fin m) (Fin m) ℝ} {round : Nat} (n : Nat) :
    ∀ {s : CSt m} {w : Vec m} {conv : List (Option ℝ)}, Valid s.used → s.run c x draw q round n = .ok (.found w, conv) →
      (∃ v, project q v = some w) ∧ ∃ r, conv.getLast? = some (some r) ∧ r < c.limit := by
  induction n with
  | zero => intro s w conv _ h; simp [CSt.run] at h
  | succ n ih =>
    intro s w conv hs h
    simp only [CSt.run] at h
    rcases iter_cases c x draw q round hs with ⟨_, e⟩ | ⟨_, ⟨_, _, e⟩ | ⟨_, ⟨_, _, _, w', e⟩ | ⟨hb, _, w', hw', e⟩ | ⟨_, w', mu, st, u, l, hu, _, e⟩⟩⟩ <;>
      rw [e] at h
    · simp at h
    · simp at h
    · exact ih (gFine_valid c) h
    · simp only [Except.ok.injEq, Prod.mk.injEq, Res.found.injEq] at h
      obtain ⟨rfl, rfl⟩ := h
      obtain ⟨r, hr, hl⟩ := hb
      refine ⟨⟨_, hw'⟩, r, ?_, hl⟩
      rw [hr]
      have h1 : (s.test q).conv = s.conv ++ [some r] := by rw [← hr]; rfl
      rw [h1, List.getLast?_eq_getElem?, List.getElem?_set]
      simp
      intro h2; omega
    · exact ih hu h

theorem run_nan (c : FCfg) (x : List (Vec m)) (draw : Nat → List (Vec m)) (q : Matrix (Fin m) (Fin m) ℝ) (round n : Nat) :
    ∀ s : CSt m, Valid s.used → s.w = none → s.fine = false → s.gabba = 1 → s.i ≤ c.maxIt + 1 → c.maxIt + 1 < s.i + n →
      ∃ conv, s.run c x draw q round n = .ok (.failed, conv) := by
  induction n with
  | zero => intro s _ _ _ _ h1 h2; omega
  | succ n ih =>
    intro s hs hw hf hg h1 h2
    have hd := (test_none (q := q) hw).2
    have hb : ¬ below (dist (s.test q).w (s.test q).wOld) c.limit := by rw [hd]; rintro ⟨r, hr, _⟩; simp at hr
    simp only [CSt.run]
    rcases iter_cases c x draw q round hs with ⟨h, e⟩ | ⟨h, ⟨_, _, e⟩ | ⟨h3, ⟨h4, _, _, w', e⟩ | ⟨h4, _, w', hw', e⟩ | ⟨_, w', mu, st, u, l, hu, hn, e⟩⟩⟩
    · omega
    · rw [e]; exact ⟨_, rfl⟩
    · exact absurd h4 hb
    · exact absurd h4 hb
    · rw [e]
      have : s.i ≠ c.maxIt + 1 := fun h => h3 ⟨hf, h⟩
      exact ih _ hu (hn (test_none hw).1) hf hg (by simp only; omega) (by simp only; omega)

theorem norm2_zero : norm2 (0 : Vec m) = 0 := by simp [norm2]

theorem dist_self (w : Vec m) : dist (some w) (some w) = some 0 := by
  simp only [dist, Option.bind_some, Option.map_some, sub_self, norm2_zero]
  rw [min_eq_left (show 0 ≤ norm2 (w + w) from Real.sqrt_nonneg _)]

/-- Fine-tuning always ends with a component: the loop for a component ends without one, other than by the failure to converge before
fine-tuning, only if there are no iterations for fine-tuning or the last vector has no numbers. -/
theorem run_over {c : FCfg} {x : List (Vec m)} {draw : Nat → List (Vec m)} {q : Matrix (Fin m) (Fin m) ℝ} {round : Nat} (hl : 0 < c.limit)
    (hmf : 0 < c.maxItFine) (n : Nat) : ∀ {s : CSt m} {conv : List (Option ℝ)}, Valid s.used →
      c.maxIt + c.maxItFine + 1 < s.i + n →
      (s.fine = false → s.gabba = 1 ∧ s.i ≤ c.maxIt + 1) →
      (s.fine = true → s.gabba = c.maxItFine ∧ s.endFine ≤ c.maxIt + c.maxItFine ∧
        (s.i ≤ s.endFine ∨ s.w = none ∧ s.conv.getLast? = some none)) →
      s.run c x draw q round n = .ok (.over, conv) → conv.getLast? = some none := by
  induction n with
  | zero =>
    intro s conv _ h1 h2 h3 h
    simp only [CSt.run, Except.ok.injEq, Prod.mk.injEq, true_and] at h
    subst h
    cases hf : s.fine with
    | false => have := h2 hf; omega
    | true =>
      obtain ⟨a, b, c' | c'⟩ := h3 hf
      · omega
      · exact c'.2
  | succ n ih =>
    intro s conv hs h1 h2 h3 h
    simp only [CSt.run] at h
    rcases iter_cases c x draw q round hs with ⟨h4, e⟩ | ⟨h4, ⟨_, _, e⟩ | ⟨h5, ⟨h6, _, hf, w', e⟩ | ⟨hb, _, w', hw', e⟩ | ⟨h6, w', mu, st, u, l, hu, hn, e⟩⟩⟩ <;>
      rw [e] at h
    · simp only [Except.ok.injEq, Prod.mk.injEq, true_and] at h
      subst h
      cases hf : s.fine with
      | false => have := h2 hf; omega
      | true =>
        obtain ⟨a, b, c' | c'⟩ := h3 hf
        · omega
        · exact c'.2
    · simp at h
    · refine ih (gFine_valid c) (by simp only; omega) (fun hh => ?_) (fun _ => ⟨rfl, ?_, .inl ?_⟩) h
      · simp [CSt.tune] at hh
      · have := (h2 hf).2
        have : s.i ≠ c.maxIt + 1 := fun h => h5 ⟨hf, h⟩
        simp only [CSt.tune, CSt.test]; omega
      · simp only [CSt.tune, CSt.test]; omega
    · simp at h
    · refine ih hu (by simp only; omega) (fun hf => ?_) (fun hf => ?_) h
      · have hf : s.fine = false := hf
        have := h2 hf
        have : s.i ≠ c.maxIt + 1 := fun h => h5 ⟨hf, h⟩
        exact ⟨(h2 hf).1, by simp only; omega⟩
      · have hf : s.fine = true := hf
        obtain ⟨a, b, c'⟩ := h3 hf
        refine ⟨a, b, ?_⟩
        by_cases hi : s.i < s.endFine
        · left; simp only [CSt.test]; omega
        · right
          have hw : (s.test q).w = none := by
            cases hw : (s.test q).w with
            | none => rfl
            | some w =>
              exfalso
              apply h6
              have : (s.test q).wOld = (s.test q).w := by simp [CSt.test, hf, not_lt.1 hi]
              rw [this, hw, dist_self]
              exact ⟨0, rfl, hl⟩
          refine ⟨hn hw, ?_⟩
          have : (s.test q).conv = s.conv ++ [dist (s.test q).w (s.test q).wOld] := rfl
          simp only [this, hw]
          simp [dist]

/-! ## Deflation -/

/-- The columns are pairwise orthogonal, and each has length one or is zero. -/
def Deflated (q : Matrix (Fin m) (Fin m) ℝ) : Prop :=
  (∀ k l, k ≠ l → ∑ a, q a k * q a l = 0) ∧ ∀ k, ∑ a, q a k * q a k = 1 ∨ ∀ a, q a k = 0

theorem normalise_unit {w : Option (Vec m)} {v : Vec m} (h : normalise w = some v) : v ⬝ᵥ v = 1 ∧
    ∃ u t, w = some u ∧ t ≠ 0 ∧ ∀ k, v k = u k / t := by
  cases w with
  | none => simp [normalise] at h
  | some u =>
    simp only [normalise, Option.bind_some] at h
    split_ifs at h with h0
    simp only [Option.some.injEq] at h
    subst h
    refine ⟨?_, u, norm2 u, rfl, h0, fun _ => rfl⟩
    have h1 : norm2 u * norm2 u = u ⬝ᵥ u := Real.mul_self_sqrt (Finset.sum_nonneg fun _ _ => mul_self_nonneg _)
    have h2 : (fun k => u k / norm2 u) ⬝ᵥ (fun k => u k / norm2 u) = (u ⬝ᵥ u) / (norm2 u * norm2 u) := by
      simp only [dotProduct, Finset.sum_div]
      exact Finset.sum_congr rfl fun k _ => by field_simp
    rw [h2, ← h1, div_self (mul_ne_zero h0 h0)]

theorem project_spec {q : Matrix (Fin m) (Fin m) ℝ} (hq : Deflated q) {v : Option (Vec m)} {w : Vec m} (h : project q v = some w) :
    ∑ a, w a * w a = 1 ∧ ∀ k, ∑ a, q a k * w a = 0 := by
  obtain ⟨h1, u, t, hu, ht, hw⟩ := normalise_unit h
  refine ⟨h1, fun k => ?_⟩
  cases v with
  | none => simp at hu
  | some v =>
    simp only [Option.map_some, Option.some.injEq] at hu
    have h2 : ∑ a, q a k * u a = 0 := by
      rw [← hu]
      have e1 : ∀ a, ((q * qᵀ) *ᵥ v) a = ∑ l, q a l * (∑ b, q b l * v b) := by
        intro a
        rw [← mulVec_mulVec]
        rfl
      simp only [Pi.sub_apply, e1, mul_sub, Finset.sum_sub_distrib, Finset.mul_sum]
      rw [Finset.sum_comm]
      have e2 : ∀ l, ∑ a, ∑ b, q a k * (q a l * (q b l * v b)) = (∑ a, q a k * q a l) * ∑ b, q b l * v b := by
        intro l
        rw [Finset.sum_mul_sum]
        exact Finset.sum_congr rfl fun a _ => Finset.sum_congr rfl fun b _ => by ring
      simp only [e2]
      have e3 : ∑ l, (∑ a, q a k * q a l) * ∑ b, q b l * v b = (∑ a, q a k * q a k) * ∑ b, q b k * v b :=
        Finset.sum_eq_single k (fun l _ hl => by rw [hq.1 k l hl.symm, zero_mul]) (by simp)
      rw [e3]
      rcases hq.2 k with h | h
      · rw [h]; ring
      · simp [h]
    have : ∑ a, q a k * w a = (∑ a, q a k * u a) / t := by
      rw [Finset.sum_div]
      exact Finset.sum_congr rfl fun a _ => by rw [hw]; ring
    rw [this, h2, zero_div]

theorem round_cases {c : FCfg} {x : List (Vec m)} {draw : Nat → Nat → List (Vec m)} {s : DSt m} (r : Fin m) (hq : Deflated s.q) :
    (∃ s', s.round c x draw r = .ok s' ∧ Deflated s'.q) ∨ (r.val = 0 ∧ s.round c x draw r = .error .convergence) ∨
      s.round c x draw r = .error .failures := by
  have hv : Valid (CSt.start c s.q s.conv (s.guess r)).used := gOrig_valid c
  obtain ⟨⟨res, conv⟩, e⟩ := run_total c x (draw r) s.q r (c.maxIt + c.maxItFine + 1) _ hv
  cases res with
  | «over» =>
    left
    simp only [DSt.round, e]
    exact ⟨_, rfl, hq⟩
  | failed =>
    simp only [DSt.round, e]
    by_cases h1 : r.val = 0
    · rw [if_pos h1]; exact .inr (.inl ⟨h1, rfl⟩)
    · rw [if_neg h1]
      by_cases h2 : c.failures < s.nfail + 1
      · rw [if_pos h2]; exact .inr (.inr rfl)
      · rw [if_neg h2]; exact .inl ⟨_, rfl, hq⟩
  | found w =>
    left
    simp only [DSt.round, e]
    refine ⟨_, rfl, ?_⟩
    obtain ⟨⟨v, hv'⟩, _⟩ := run_found _ hv e
    obtain ⟨h1, h2⟩ := project_spec hq hv'
    constructor
    · intro k l hkl
      by_cases hk : k = r
      · subst hk
        have : l ≠ k := fun h => hkl h.symm
        simp only [if_true, this, if_false]
        rw [← h2 l]; exact Finset.sum_congr rfl fun a _ => mul_comm _ _
      · by_cases hl : l = r
        · subst hl; simp only [if_true, hk, if_false]; exact h2 k
        · simp only [hk, hl, if_false]; exact hq.1 k l hkl
    · intro k
      by_cases hk : k = r
      · left; simp only [hk, if_true]; exact h1
      · simp only [hk, if_false]; exact hq.2 k

theorem rounds_ok {c : FCfg} {x : List (Vec m)} {draw : Nat → Nat → List (Vec m)} (l : List (Fin m)) :
    ∀ s : DSt m, Deflated s.q → (∃ s', s.rounds c x draw l = .ok s' ∧ Deflated s'.q) ∨ s.rounds c x draw l = .error .convergence ∨
      s.rounds c x draw l = .error .failures := by
  induction l with
  | nil => exact fun s h => .inl ⟨s, rfl, h⟩
  | cons r l ih =>
    intro s h
    simp only [DSt.rounds]
    rcases round_cases (c := c) (x := x) (draw := draw) r h with ⟨s', e, h'⟩ | ⟨_, e⟩ | e
    · rw [e]; exact ih s' h'
    · rw [e]; exact .inr (.inl rfl)
    · rw [e]; exact .inr (.inr rfl)

/-- In deflation mode the core routine ends, for all data, parameters and random samples, with one of its two exceptions (no convergence
of the first component, too many failures) or with filters that are pairwise orthogonal and have length one or zero. The exception
for an unknown nonlinearity is never raised. -/
theorem fast_defl_partial (c : FCfg) (x : List (Vec m)) (draw : Nat → Nat → List (Vec m)) (guess : Matrix (Fin m) (Fin m) ℝ) :
    (∃ s, fastDefl c x draw guess = .ok s ∧ (∀ k l, k ≠ l → s.q.col k ⬝ᵥ s.q.col l = 0) ∧
      ∀ k, s.q.col k ⬝ᵥ s.q.col k = 1 ∨ s.q.col k = 0) ∨
    fastDefl c x draw guess = .error .convergence ∨ fastDefl c x draw guess = .error .failures := by
  have h0 : Deflated (0 : Matrix (Fin m) (Fin m) ℝ) := ⟨by simp, by simp⟩
  rcases rounds_ok (c := c) (x := x) (draw := draw) (List.finRange m) ⟨0, 0, [], fun k => some fun a => guess a k⟩ h0 with
    ⟨s', e, h⟩ | e | e
  · refine .inl ⟨s', e, h.1, fun k => ?_⟩
    rcases h.2 k with h | h
    · exact .inl h
    · exact .inr (funext h)
  · exact .inr (.inl e)
  · exact .inr (.inr e)

/-- Filters without a zero column are orthogonal. -/
theorem fast_defl_orthogonal {c : FCfg} {x : List (Vec m)} {draw : Nat → Nat → List (Vec m)} {guess : Matrix (Fin m) (Fin m) ℝ}
    {s : DSt m} (h : fastDefl c x draw guess = .ok s) (hz : ∀ k, s.q.col k ≠ 0) : s.qᵀ * s.q = 1 ∧ s.q * s.qᵀ = 1 := by
  have h1 : s.qᵀ * s.q = 1 := by
    rcases fast_defl_partial c x draw guess with ⟨s', e, h1, h2⟩ | e | e
    · rw [h] at e
      injection e with e
      subst e
      ext k l
      rw [mul_apply, one_apply]
      split_ifs with hkl
      · subst hkl; exact (h2 k).resolve_right (hz k)
      · exact h1 k l hkl
    · rw [h] at e; simp at e
    · rw [h] at e; simp at e
  exact ⟨h1, mul_eq_one_comm.1 h1⟩

/-- Fine-tuning, once it has begun, ends with a component: a component whose loop ends otherwise than with a result or with the failure to
converge has a vector without numbers. -/
theorem fast_fine {c : FCfg} {x : List (Vec m)} {draw : Nat → List (Vec m)} {q : Matrix (Fin m) (Fin m) ℝ} {round : Nat}
    {conv0 conv : List (Option ℝ)} {guess : Option (Vec m)} (hl : 0 < c.limit) (hmf : 0 < c.maxItFine)
    (h : (CSt.start c q conv0 guess).run c x draw q round (c.maxIt + c.maxItFine + 1) = .ok (.over, conv)) :
    conv.getLast? = some none :=
  run_over hl hmf _ (gOrig_valid c) (by simp only [CSt.start]; omega) (fun _ => ⟨rfl, by simp only [CSt.start]; omega⟩)
    (fun h => by simp [CSt.start] at h) h

/-- The initial guess is overwritten: whatever array is given, its columns have length one (or no numbers) afterwards. -/
theorem fast_guess {c : FCfg} {x : List (Vec m)} {draw : Nat → Nat → List (Vec m)} {guess : Matrix (Fin m) (Fin m) ℝ}
    {s : DSt m} (h : fastDefl c x draw guess = .ok s) (k : Fin m) : s.guess k = none ∨ ∃ v, s.guess k = some v ∧ v ⬝ᵥ v = 1 := by
  have hround : ∀ (r : Fin m) (s s' : DSt m), s.round c x draw r = .ok s' →
      s'.guess = fun k => if k = r then project s.q (CSt.start c s.q s.conv (s.guess r)).w else s.guess k := by
    intro r s s' h
    simp only [DSt.round] at h
    split at h
    · simp at h
    · injection h with h; rw [← h]
    · split_ifs at h
      injection h with h; rw [← h]
    · injection h with h; rw [← h]
  have key : ∀ l : List (Fin m), ∀ s s' : DSt m, s.rounds c x draw l = .ok s' →
      (k ∉ l → s.guess k = none ∨ ∃ v, s.guess k = some v ∧ v ⬝ᵥ v = 1) → s'.guess k = none ∨ ∃ v, s'.guess k = some v ∧ v ⬝ᵥ v = 1 := by
    intro l
    induction l with
    | nil => intro s s' e h; injection e with e; rw [← e]; exact h (by simp)
    | cons r l ih =>
      intro s s' e h
      simp only [DSt.rounds] at e
      split at e
      · simp at e
      · rename_i s1 e1
        refine ih s1 s' e fun hk => ?_
        rw [hround r s s1 e1]
        by_cases hkr : k = r
        · simp only [hkr, if_true]
          cases hp : project s.q (CSt.start c s.q s.conv (s.guess r)).w with
          | none => exact .inl rfl
          | some v => exact .inr ⟨v, rfl, (normalise_unit hp).1⟩
        · simp only [if_neg hkr]
          exact h (by simp [hkr, hk])
  exact key (List.finRange m) _ s h fun h => absurd (List.mem_finRange k) h

/-- So an array whose columns do not have length one is not what it was. -/
theorem fast_guess_false {c : FCfg} {x : List (Vec m)} {draw : Nat → Nat → List (Vec m)} {guess : Matrix (Fin m) (Fin m) ℝ}
    {s : DSt m} (h : fastDefl c x draw guess = .ok s) (k : Fin m) (hk : guess.col k ⬝ᵥ guess.col k ≠ 1) :
    s.guess k ≠ some (guess.col k) := by
  intro h1
  rcases fast_guess h k with h2 | ⟨v, h2, h3⟩
  · rw [h1] at h2; simp at h2
  · rw [h1] at h2; injection h2 with h2; subst h2; exact hk h3

/-! ## A component that does not converge -/

/-- Two independent signals of mean zero and variance one: the first one is skewed, the second one is symmetric. -/
noncomputable def skewed : List (Vec 2) :=
  [![2, 1], ![2, -1], ![-1 / 2, 1], ![-1 / 2, -1], ![-1 / 2, 1], ![-1 / 2, -1], ![-1 / 2, 1], ![-1 / 2, -1], ![-1 / 2, 1],
    ![-1 / 2, -1]]

/-- The parameters `approach='defl', g='skew', fine_g=None`. -/
noncomputable def skewCfg (maxIt failures : Nat) (limit : ℝ) : FCfg :=
  ⟨.skew, none, 1, 1, 1, 1, maxIt, 100, failures, none, limit⟩

theorem norm2_e0 (t : ℝ) : norm2 ![t, 0] = |t| := by
  simp [norm2, dotProduct, Fin.sum_univ_two, Real.sqrt_mul_self_eq_abs]

theorem norm2_e1 (t : ℝ) : norm2 ![0, t] = |t| := by
  simp [norm2, dotProduct, Fin.sum_univ_two, Real.sqrt_mul_self_eq_abs]

theorem plain_skewed (maxIt failures : Nat) (limit : ℝ) :
    (skewCfg maxIt failures limit).plain .skew skewed ![1, 0] = ![3 / 2, 0] ∧
    (skewCfg maxIt failures limit).plain .skew skewed ![0, 1] = ![0, 0] := by
  constructor <;>
  · funext k
    fin_cases k <;> simp [FCfg.plain, avg, FCfg.fn, FCfg.dfn, skewed, dotProduct, Fin.sum_univ_two] <;> norm_num

/-! ## An iteration with the default parameters -/

theorem calm_go {c : FCfg} {x : List (Vec m)} {draw : Nat → List (Vec m)} {q : Matrix (Fin m) (Fin m) ℝ} {round : Nat} {s : CSt m}
    {w : Vec m} (hmu : c.mu = 1) (hi : s.i ≤ c.maxIt) (hf : s.fine = false) {n : Nl} (hu : decode s.used = some (n, false, false))
    (hw : project q s.w = some w) (hb : ¬ below (dist (some w) s.wOld) c.limit) :
    s.iter c x draw q round = .ok (.inl { s with
      w := normalise (some (c.plain n x w)), wOld := some w, wOldF := s.wOld,
      conv := s.conv ++ [dist (some w) s.wOld], i := s.i + 1 }) := by
  have h1 : s.i ≤ c.maxIt + s.gabba := Nat.le_add_right_of_le hi
  have h2 : ¬ (s.fine = false ∧ s.i = c.maxIt + 1) := fun h => by
    have := h.2; omega
  have h3 : s.test q = { s with w := some w, conv := s.conv ++ [dist (some w) s.wOld] } := by simp [CSt.test, hf, hw]
  have h4 : ¬ below (dist (s.test q).w (s.test q).wOld) c.limit := by rw [h3]; exact hb
  have h5 : ∀ t : CSt m, t.damp c = t := fun t => by simp [CSt.damp, FCfg.stab, hmu]
  simp only [CSt.iter]
  rw [if_pos h1, if_neg h2, if_neg h4, h5, h3]
  simp only [CSt.step, hu]
  rfl

theorem calm_found {c : FCfg} {x : List (Vec m)} {draw : Nat → List (Vec m)} {q : Matrix (Fin m) (Fin m) ℝ} {round : Nat}
    {s : CSt m} {w : Vec m} (hg : c.fineG = none) (hi : s.i ≤ c.maxIt) (hf : s.fine = false) (hw : project q s.w = some w)
    (hb : below (dist (some w) s.wOld) c.limit) :
    ∃ conv, s.iter c x draw q round = .ok (.inr (.found w, conv)) := by
  have h1 : s.i ≤ c.maxIt + s.gabba := Nat.le_add_right_of_le hi
  have h2 : ¬ (s.fine = false ∧ s.i = c.maxIt + 1) := fun h => by
    have := h.2; omega
  have h3 : s.test q = { s with w := some w, conv := s.conv ++ [dist (some w) s.wOld] } := by simp [CSt.test, hf, hw]
  have h4 : below (dist (s.test q).w (s.test q).wOld) c.limit := by rw [h3]; exact hb
  have h5 : ¬ (c.fineG.isSome ∧ (s.test q).fine = false) := by simp [hg]
  simp only [CSt.iter]
  rw [if_pos h1, if_neg h2, if_pos h4, if_neg h5, h3]
  exact ⟨_, rfl⟩

theorem decode_default {c : FCfg} (hmu : c.mu = 1) (hs : c.sampleSize = 1) : decode c.gOrig = some (c.g, false, false) := by
  simp only [FCfg.gOrig, hmu, hs]
  cases c.g <;> simp [Nl.code, decode]

theorem project_zero (w : Option (Vec m)) : project 0 w = normalise w := by
  cases w <;> simp [project]

theorem normalise_e0 {t : ℝ} (h : 0 < t) : normalise (some ![t, 0]) = some ![1, 0] := by
  simp only [normalise, Option.bind_some, norm2_e0, abs_of_pos h, h.ne', if_false, Option.some.injEq]
  funext k
  fin_cases k <;> simp [h.ne']

theorem normalise_e1 {t : ℝ} (h : 0 < t) : normalise (some ![0, t]) = some ![0, 1] := by
  simp only [normalise, Option.bind_some, norm2_e1, abs_of_pos h, h.ne', if_false, Option.some.injEq]
  funext k
  fin_cases k <;> simp [h.ne']

theorem dist_unit {w : Vec m} (h : norm2 w = 1) {limit : ℝ} (hl : limit ≤ 1) : ¬ below (dist (some w) (some 0)) limit := by
  rintro ⟨r, hr, h1⟩
  simp only [dist, Option.bind_some, Option.map_some, sub_zero, add_zero, min_self, Option.some.injEq, h] at hr
  linarith

/-- A component other than the first one that does not converge leaves a column of zeros in the filters, without an exception: for these
independent signals, with `g='skew'`, whitened data and the right directions as initial guess, for every number of iterations from two
on, every number of failures allowed from one on. The second output is zero for every input. -/
theorem fast_zero_false (maxIt failures : Nat) (limit : ℝ) (draw : Nat → Nat → List (Vec 2)) (hm : 2 ≤ maxIt) (hf : 1 ≤ failures)
    (hl : 0 < limit) (hl1 : limit ≤ 1) :
    ∃ s, fastDefl (skewCfg maxIt failures limit) skewed draw 1 = .ok s ∧ s.q = !![1, 0; 0, 0] ∧
      ∀ r : Vec 2, (r ᵥ* s.q) 1 = 0 := by
  have hp := plain_skewed maxIt failures limit
  have hd : decode (skewCfg maxIt failures limit).gOrig = some (.skew, false, false) := decode_default rfl rfl
  -- the first component
  have r0 : ∃ conv, (CSt.start (skewCfg maxIt failures limit) 0 [] (some ![1, 0])).run (skewCfg maxIt failures limit) skewed (draw 0) 0 0
      (maxIt + 100 + 1) = .ok (.found ![1, 0], conv) := by
    rw [show maxIt + 100 + 1 = (maxIt + 99) + 1 + 1 by omega]
    have e1 := calm_go (c := skewCfg maxIt failures limit) (x := skewed) (n := .skew) (draw := draw 0) (q := 0) (round := 0)
      (s := CSt.start (skewCfg maxIt failures limit) 0 [] (some ![1, 0])) (w := ![1, 0]) rfl (by simp only [CSt.start, skewCfg]; omega) rfl hd
      (by simp only [CSt.start, project_zero]; rw [normalise_e0 one_pos, normalise_e0 one_pos])
      (dist_unit (by rw [norm2_e0]; simp) hl1)
    rw [hp.1, normalise_e0 (by norm_num)] at e1
    rw [CSt.run, e1]
    simp only
    obtain ⟨conv, e2⟩ := calm_found (c := skewCfg maxIt failures limit) (x := skewed) (draw := draw 0) (q := 0) (round := 0)
      (s := { CSt.start (skewCfg maxIt failures limit) 0 [] (some ![1, 0]) with
        w := some ![1, 0], wOld := some ![1, 0], wOldF := (CSt.start (skewCfg maxIt failures limit) 0 [] (some ![1, 0])).wOld,
        conv := (CSt.start (skewCfg maxIt failures limit) 0 [] (some ![1, 0])).conv ++
          [dist (some ![1, 0]) (CSt.start (skewCfg maxIt failures limit) 0 [] (some ![1, 0])).wOld],
        i := (CSt.start (skewCfg maxIt failures limit) 0 [] (some ![1, 0])).i + 1 }) (w := ![1, 0]) rfl (by simp only [CSt.start, skewCfg]; omega) rfl
      (by rw [project_zero, normalise_e0 one_pos]) (by rw [dist_self]; exact ⟨0, rfl, hl⟩)
    rw [CSt.run, e2]
    exact ⟨_, rfl⟩
  obtain ⟨conv0, e0⟩ := r0
  -- the second component
  have hpr : ∀ t : ℝ, 0 < t → project !![1, 0; 0, 0] (some ![0, t]) = some ![0, 1] := by
    intro t ht
    rw [← normalise_e1 ht]
    simp only [project, Option.map_some]
    congr 2
    funext k
    fin_cases k <;> simp [mulVec, dotProduct, Fin.sum_univ_two, mul_apply, -cons_mul]
  have r1 : ∃ conv, (CSt.start (skewCfg maxIt failures limit) !![1, 0; 0, 0] conv0 (some ![0, 1])).run (skewCfg maxIt failures limit) skewed
      (draw 1) !![1, 0; 0, 0] 1 (maxIt + 100 + 1) = .ok (.failed, conv) := by
    have e1 := calm_go (c := skewCfg maxIt failures limit) (x := skewed) (n := .skew) (draw := draw 1) (q := !![1, 0; 0, 0]) (round := 1)
      (s := CSt.start (skewCfg maxIt failures limit) !![1, 0; 0, 0] conv0 (some ![0, 1])) (w := ![0, 1]) rfl (by simp only [CSt.start, skewCfg]; omega)
      rfl hd (by simp only [CSt.start]; rw [hpr 1 one_pos, hpr 1 one_pos]) (dist_unit (by rw [norm2_e1]; simp) hl1)
    rw [CSt.run, e1]
    apply run_nan
    · simp only [CSt.start]; exact gOrig_valid _
    · rw [hp.2]; simp [normalise, norm2_e0]
    · rfl
    · rfl
    · simp only [CSt.start, skewCfg]; omega
    · simp only [CSt.start, skewCfg]; omega
  obtain ⟨conv1, e1⟩ := r1
  have g0 : (fun a => (1 : Matrix (Fin 2) (Fin 2) ℝ) a 0) = ![1, 0] := by
    funext a; fin_cases a <;> simp [one_apply]
  have g1 : (fun a => (1 : Matrix (Fin 2) (Fin 2) ℝ) a 1) = ![0, 1] := by
    funext a; fin_cases a <;> simp [one_apply]
  have q1 : (fun a k => if k = 0 then (![1, 0] : Vec 2) a else (0 : Matrix (Fin 2) (Fin 2) ℝ) a k : Matrix (Fin 2) (Fin 2) ℝ) =
      !![1, 0; 0, 0] := by
    ext a k; fin_cases a <;> fin_cases k <;> simp
  have hs : ∃ s, fastDefl (skewCfg maxIt failures limit) skewed draw 1 = .ok s ∧ s.q = !![1, 0; 0, 0] := by
    have h2 : List.finRange 2 = [0, 1] := by decide
    have hm2 : (skewCfg maxIt failures limit).maxIt + (skewCfg maxIt failures limit).maxItFine + 1 = maxIt + 100 + 1 := rfl
    have hn : ¬ ((skewCfg maxIt failures limit).failures < 0 + 1) := by simp only [skewCfg]; omega
    have hne : ¬ ((1 : Fin 2) = 0) := by decide
    simp only [fastDefl, h2, DSt.rounds, DSt.round, hm2, g0, Fin.val_zero]
    rw [e0]
    simp only [g1, if_neg hne, q1, Fin.val_one]
    rw [e1]
    simp only [if_neg hn, one_ne_zero, if_false]
    exact ⟨_, rfl, rfl⟩
  obtain ⟨s, h1, h2⟩ := hs
  refine ⟨s, h1, h2, fun r => ?_⟩
  rw [h2]
  simp [vecMul, dotProduct, Fin.sum_univ_two]

/-! ## Independent components -/

/-- The vector with one entry. -/
def unit (r : Fin m) (t : ℝ) : Vec m := fun a => if a = r then t else 0

theorem norm2_unit (r : Fin m) (t : ℝ) : norm2 (unit r t) = |t| := by
  simp [norm2, dotProduct, unit, Real.sqrt_mul_self_eq_abs]

theorem normalise_unit' (r : Fin m) {t : ℝ} (h : t ≠ 0) : ∃ e, (e = 1 ∨ e = -1) ∧ normalise (some (unit r t)) = some (unit r e) := by
  refine ⟨t / |t|, ?_, ?_⟩
  · rcases abs_cases t with ⟨h1, _⟩ | ⟨h1, _⟩ <;> rw [h1]
    · left; exact div_self h
    · right; rw [div_neg, div_self h]
  · simp only [normalise, Option.bind_some, norm2_unit, abs_ne_zero.2 h, if_false, Option.some.injEq]
    funext a
    simp only [unit]
    split_ifs <;> simp

theorem normalise_sign (r : Fin m) {e : ℝ} (h : e = 1 ∨ e = -1) : normalise (some (unit r e)) = some (unit r e) := by
  have h1 : |e| = 1 := by rcases h with h | h <;> simp [h]
  simp only [normalise, Option.bind_some, norm2_unit, h1, one_ne_zero, if_false, div_one]

theorem dist_sign (r : Fin m) {e : ℝ} (h : e = 1 ∨ e = -1) : dist (some (unit r e)) (some (unit r 1)) = some 0 := by
  simp only [dist, Option.bind_some, Option.map_some, Option.some.injEq]
  have h1 : unit r e - unit r 1 = unit r (e - 1) := by funext a; simp only [Pi.sub_apply, unit]; split_ifs <;> simp
  have h2 : unit r e + unit r 1 = unit r (e + 1) := by funext a; simp only [Pi.add_apply, unit]; split_ifs <;> simp
  rw [h1, h2, norm2_unit, norm2_unit]
  rcases h with h | h <;> rw [h] <;> norm_num

/-- The columns of the filters are positive or negative unit vectors, or zero for the components still to be found. -/
def Signs (q : Matrix (Fin m) (Fin m) ℝ) (l : List (Fin m)) : Prop :=
  ∀ k, (k ∈ l → ∀ a, q a k = 0) ∧ (k ∉ l → ∃ e, (e = 1 ∨ e = -1) ∧ ∀ a, q a k = if a = k then e else 0)

theorem project_signs {q : Matrix (Fin m) (Fin m) ℝ} {l : List (Fin m)} (hq : Signs q l) {r : Fin m} (hr : r ∈ l) (e : ℝ) :
    project q (some (unit r e)) = normalise (some (unit r e)) := by
  simp only [project, Option.map_some]
  congr 2
  have h1 : (q * qᵀ) *ᵥ unit r e = 0 := by
    rw [← mulVec_mulVec]
    have h2 : qᵀ *ᵥ unit r e = 0 := by
      funext k
      have h3 : (qᵀ *ᵥ unit r e) k = q r k * e := by
        simp [mulVec, dotProduct, unit]
      rw [h3]
      by_cases hk : k ∈ l
      · rw [(hq k).1 hk, zero_mul]; rfl
      · obtain ⟨e', _, h4⟩ := (hq k).2 hk
        have h5 : r ≠ k := fun h => hk (h ▸ hr)
        rw [h4, if_neg h5, zero_mul]; rfl
    rw [h2, mulVec_zero]
  rw [h1, sub_zero]

theorem plain_separated {c : FCfg} {x : List (Vec m)} (hx : ∀ a k, a ≠ k → avg x (fun r => r a * c.fn c.g (r k)) = 0) (k : Fin m) :
    c.plain c.g x (unit k 1) = unit k (avg x (fun r => r k * c.fn c.g (r k)) - avg x (fun r => c.dfn c.g (r k))) := by
  have h1 : ∀ r : Vec m, r ⬝ᵥ unit k 1 = r k := fun r => by simp [dotProduct, unit]
  funext a
  simp only [FCfg.plain, h1, unit]
  split_ifs with h
  · rw [h, mul_one]
  · rw [hx a k h, mul_zero, sub_zero]

/-- The round of one component of separated data. -/
theorem round_separated {c : FCfg} {x : List (Vec m)} {draw : Nat → Nat → List (Vec m)} (hmu : c.mu = 1) (hs : c.sampleSize = 1)
    (hg : c.fineG = none) (hm : 2 ≤ c.maxIt) (hl : 0 < c.limit) (hl1 : c.limit ≤ 1)
    (hx : ∀ a k, a ≠ k → avg x (fun r => r a * c.fn c.g (r k)) = 0)
    (hk : ∀ k, avg x (fun r => r k * c.fn c.g (r k)) - avg x (fun r => c.dfn c.g (r k)) ≠ 0) {s : DSt m} {r : Fin m} {l : List (Fin m)}
    (hn : (r :: l).Nodup) (hq : Signs s.q (r :: l)) (hgu : s.guess r = some (unit r 1)) :
    ∃ s', s.round c x draw r = .ok s' ∧ Signs s'.q l ∧ ∀ k ∈ l, s'.guess k = s.guess k := by
  have hr : r ∈ r :: l := List.mem_cons_self
  have hp : ∀ e, (e = 1 ∨ e = -1) → project s.q (some (unit r e)) = some (unit r e) := fun e he => by
    rw [project_signs hq hr, normalise_sign r he]
  have hd := decode_default hmu hs
  obtain ⟨e, he, hne⟩ := normalise_unit' r (hk r)
  have hrun : ∃ conv, (CSt.start c s.q s.conv (s.guess r)).run c x (draw r) s.q r (c.maxIt + c.maxItFine + 1) =
      .ok (.found (unit r e), conv) := by
    obtain ⟨n, hn⟩ : ∃ n, c.maxIt + c.maxItFine + 1 = n + 1 + 1 := ⟨c.maxIt + c.maxItFine - 1, by omega⟩
    rw [hn, hgu]
    have e1 := calm_go (c := c) (x := x) (draw := draw r) (q := s.q) (round := r) (s := CSt.start c s.q s.conv (some (unit r 1)))
      (w := unit r 1) hmu (by simp only [CSt.start]; omega) rfl hd (by simp only [CSt.start]; rw [hp 1 (.inl rfl), hp 1 (.inl rfl)])
      (dist_unit (by rw [norm2_unit]; simp) hl1)
    rw [plain_separated hx, hne] at e1
    rw [CSt.run, e1]
    simp only
    obtain ⟨conv, e2⟩ := calm_found (c := c) (x := x) (draw := draw r) (q := s.q) (round := r)
      (s := { CSt.start c s.q s.conv (some (unit r 1)) with
        w := some (unit r e), wOld := some (unit r 1), wOldF := (CSt.start c s.q s.conv (some (unit r 1))).wOld,
        conv := (CSt.start c s.q s.conv (some (unit r 1))).conv ++
          [dist (some (unit r 1)) (CSt.start c s.q s.conv (some (unit r 1))).wOld],
        i := (CSt.start c s.q s.conv (some (unit r 1))).i + 1 }) (w := unit r e) hg (by simp only [CSt.start]; omega) rfl
      (hp e he) (by rw [dist_sign r he]; exact ⟨0, rfl, hl⟩)
    rw [CSt.run, e2]
    exact ⟨_, rfl⟩
  obtain ⟨conv, e1⟩ := hrun
  simp only [DSt.round, e1]
  refine ⟨_, rfl, fun k => ⟨fun hkl a => ?_, fun hkl => ?_⟩, fun k hkl => ?_⟩
  · have h1 : k ≠ r := fun h => (List.nodup_cons.1 hn).1 (h ▸ hkl)
    simp only [if_neg h1]
    exact (hq k).1 (List.mem_cons_of_mem _ hkl) a
  · by_cases h1 : k = r
    · subst h1
      exact ⟨e, he, fun a => by simp only [if_true, unit]⟩
    · obtain ⟨e', h2, h3⟩ := (hq k).2 (by simp [h1, hkl])
      exact ⟨e', h2, fun a => by simp only [if_neg h1]; exact h3 a⟩
  · have h1 : k ≠ r := fun h => (List.nodup_cons.1 hn).1 (h ▸ hkl)
    simp only [if_neg h1]

/-- Separated signals stay separated: if the data are such that every signal is uncorrelated with the nonlinear function of every other
one (as independent signals of mean zero are), and the initial guess is right, then FastICA with `approach='defl'`, no fine-tuning, any of
the nonlinearities and any limit up to one finds every component: the filters are a diagonal matrix of signs. -/
theorem fast_separated {c : FCfg} {x : List (Vec m)} (draw : Nat → Nat → List (Vec m)) (hmu : c.mu = 1) (hs : c.sampleSize = 1)
    (hg : c.fineG = none) (hm : 2 ≤ c.maxIt) (hl : 0 < c.limit) (hl1 : c.limit ≤ 1)
    (hx : ∀ a k, a ≠ k → avg x (fun r => r a * c.fn c.g (r k)) = 0)
    (hk : ∀ k, avg x (fun r => r k * c.fn c.g (r k)) ≠ avg x (fun r => c.dfn c.g (r k))) :
    ∃ s, fastDefl c x draw 1 = .ok s ∧ ∃ e : Fin m → ℝ, (∀ k, e k = 1 ∨ e k = -1) ∧ s.q = diagonal e := by
  have key : ∀ l : List (Fin m), l.Nodup → ∀ s : DSt m, Signs s.q l → (∀ k ∈ l, s.guess k = some (unit k 1)) →
      ∃ s', s.rounds c x draw l = .ok s' ∧ Signs s'.q [] := by
    intro l
    induction l with
    | nil => exact fun _ s h _ => ⟨s, rfl, h⟩
    | cons r l ih =>
      intro hn s h hgu
      obtain ⟨s', e1, h1, h2⟩ := round_separated (draw := draw) hmu hs hg hm hl hl1 hx (fun k => sub_ne_zero.2 (hk k)) hn h
        (hgu r List.mem_cons_self)
      simp only [DSt.rounds, e1]
      exact ih (List.nodup_cons.1 hn).2 s' h1 fun k hkl => by rw [h2 k hkl, hgu k (List.mem_cons_of_mem _ hkl)]
  obtain ⟨s, e1, h1⟩ := key (List.finRange m) (List.nodup_finRange m) ⟨0, 0, [], fun k => some fun a => (1 : Matrix (Fin m) (Fin m) ℝ) a k⟩
    (fun k => ⟨fun _ _ => rfl, fun h => absurd (List.mem_finRange k) h⟩)
    (fun k _ => by simp only [Option.some.injEq]; funext a; simp [one_apply, unit])
  refine ⟨s, e1, ?_⟩
  choose e he1 he2 using fun k => (h1 k).2 (by simp)
  refine ⟨e, he1, ?_⟩
  ext a k
  rw [he2, diagonal_apply]
  split_ifs with h
  · rw [h]
  · rfl

/-- Two independent binary signals. -/
example : ∃ s, fastDefl ⟨.pow3, none, 1, 1, 1, 1, 100, 100, 5, none, 1 / 10⟩ binary (fun _ _ => []) 1 = .ok s ∧
    ∃ e : Fin 2 → ℝ, (∀ k, e k = 1 ∨ e k = -1) ∧ s.q = diagonal e := by
  refine fast_separated _ rfl rfl rfl (by norm_num) (by norm_num) (by norm_num) ?_ ?_
  · intro a k h
    fin_cases a <;> fin_cases k <;> first | exact absurd rfl h | norm_num [avg, binary, FCfg.fn]
  · intro k
    fin_cases k <;> norm_num [avg, binary, FCfg.fn, FCfg.dfn]

/-! ## Stabilisation -/

/-- The stabilised step is a mean of the old vector and a multiple of the plain step, with the weight `mu`: with `mu = 1` it has the
direction of the plain step. -/
theorem fast_stabilised {c : FCfg} {n : Nl} {mu : ℝ} {x : List (Vec m)} {w w' : Vec m} (h : c.damped n mu x w = some w') :
    ∃ t, t ≠ 0 ∧ ∀ k, w' k = (1 - mu) * w k + mu * (t * c.plain n x w k) := by
  simp only [FCfg.damped] at h
  split_ifs at h with h0
  simp only [Option.some.injEq] at h
  subst h
  generalize (w ⬝ᵥ fun k => avg x fun r => r k * c.fn n (r ⬝ᵥ w)) = beta at *
  refine ⟨-1 / (avg x (fun r => c.dfn n (r ⬝ᵥ w)) - beta), div_ne_zero (by norm_num) h0, fun k => ?_⟩
  simp only [FCfg.plain]
  field_simp
  ring

/-- The same for the matrix of the symmetric approach, column by column, if the matrix is orthogonal (as it is when the step is taken). -/
theorem fast_stabilised_symm {c : FCfg} {n : Nl} {mu : ℝ} {x : List (Vec m)} {q q' : Matrix (Fin m) (Fin m) ℝ} (hq : q * qᵀ = 1)
    (h : c.dampedM n mu x q = some q') :
    ∀ k, ∃ t, t ≠ 0 ∧ ∀ a, q' a k = (1 - mu) * q a k + mu * (t * c.plain n x (q.col k) a) := by
  simp only [FCfg.dampedM] at h
  split_ifs at h with h0
  simp only [Option.some.injEq] at h
  subst h
  push Not at h0
  simp only [of_apply] at h0
  have hex : ∀ a k, (q * Matrix.of fun a k => avg x (fun r => (r ⬝ᵥ q.col a) * c.fn n (r ⬝ᵥ q.col k))) a k =
      avg x (fun r => r a * c.fn n (r ⬝ᵥ q.col k)) := by
    intro a k
    have e1 : ∀ r : Vec m, ∑ b, q a b * (r ⬝ᵥ q.col b) = r a := by
      intro r
      have e2 : ∑ b, q a b * (r ⬝ᵥ q.col b) = ((q * qᵀ) *ᵥ r) a := by
        rw [← mulVec_mulVec]
        simp only [mulVec, dotProduct, transpose_apply, col_apply]
        exact Finset.sum_congr rfl fun b _ => by congr 1; exact Finset.sum_congr rfl fun i _ => mul_comm _ _
      rw [e2, hq, one_mulVec]
    rw [mul_apply]
    simp only [avg, of_apply]
    have e3 : ∀ l : List (Vec m), ∑ b, q a b * ((l.map fun r => (r ⬝ᵥ q.col b) * c.fn n (r ⬝ᵥ q.col k)).sum / x.length) =
        (l.map fun r => r a * c.fn n (r ⬝ᵥ q.col k)).sum / x.length := by
      intro l
      induction l with
      | nil => simp
      | cons r l ih =>
        simp only [List.map_cons, List.sum_cons, add_div, mul_add, Finset.sum_add_distrib, ih]
        congr 1
        rw [← e1 r, Finset.sum_mul, Finset.sum_div]
        exact Finset.sum_congr rfl fun b _ => by ring
    exact e3 x
  intro k
  refine ⟨1 / (avg x (fun r => (r ⬝ᵥ q.col k) * c.fn n (r ⬝ᵥ q.col k)) - avg x (fun r => c.dfn n (r ⬝ᵥ q.col k))),
    div_ne_zero one_ne_zero (h0 k), fun a => ?_⟩
  rw [Matrix.add_apply, Matrix.smul_apply, smul_eq_mul, ← Matrix.mul_assoc, mul_diagonal, Matrix.mul_sub, Matrix.sub_apply, mul_diagonal, hex]
  simp only [FCfg.plain, col_apply, of_apply]
  have := h0 k
  field_simp
  ring

/-! ## The symmetric approach -/

/-- What is relied on of the routines `utils.inv` and `utils.sqrtm` together: the result is symmetric and its square is the inverse. -/
def Root (root : Matrix (Fin m) (Fin m) ℝ → Option (Matrix (Fin m) (Fin m) ℝ)) : Prop :=
  ∀ a h, aᵀ = a → root a = some h → hᵀ = h ∧ h * h * a = 1

theorem symm_orthogonalised {root : Matrix (Fin m) (Fin m) ℝ → Option (Matrix (Fin m) (Fin m) ℝ)} (hr : Root root)
    {q h : Matrix (Fin m) (Fin m) ℝ} (e : root (qᵀ * q) = some h) : (q * h)ᵀ * (q * h) = 1 := by
  obtain ⟨h1, h2⟩ := hr _ _ (by rw [transpose_mul, transpose_transpose]) e
  rw [Matrix.mul_assoc, mul_eq_one_comm] at h2
  rw [transpose_mul, h1]
  calc h * qᵀ * (q * h) = h * ((qᵀ * q) * h) := by simp only [Matrix.mul_assoc]
    _ = h * (qᵀ * q) * h := by simp only [Matrix.mul_assoc]
    _ = 1 := h2

theorem symm_damp_fields (c : FCfg) (round : Nat) (s : SSt m) (v2 : ℝ) : ∃ mu stroke used lng, s.damp c round v2 =
    { s with mu := mu, stroke := stroke, used := used, lng := lng } ∧ (Valid s.used → Valid used) := by
  simp only [SSt.damp]
  by_cases h1 : c.stab
  · rw [if_pos h1]
    by_cases h2 : s.stroke = 0 ∧ v2 < c.limit
    · rw [if_pos h2]; exact ⟨_, _, _, _, rfl, valid_up⟩
    · rw [if_neg h2]
      by_cases h3 : s.stroke ≠ 0
      · rw [if_pos h3]; exact ⟨_, _, _, _, rfl, valid_down⟩
      · rw [if_neg h3]
        by_cases h4 : s.lng = false ∧ c.maxIt / 2 < round
        · rw [if_pos h4]; exact ⟨_, _, _, _, rfl, valid_up⟩
        · rw [if_neg h4]; exact ⟨_, _, _, _, rfl, id⟩
  · rw [if_neg h1]; exact ⟨_, _, _, _, rfl, id⟩

theorem coarsen_fields (c : FCfg) (s : SSt m) (v : ℝ) : ∃ used coarse, SSt.coarsen c s v = { s with used := used, coarse := coarse } ∧
    (Valid s.used → Valid used) := by
  simp only [SSt.coarsen]
  split_ifs
  · exact ⟨_, _, rfl, fun _ => gFine_valid c⟩
  · exact ⟨_, _, rfl, id⟩

theorem symm_step_ok (c : FCfg) (x : List (Vec m)) (draw : Nat → List (Vec m)) (round : Nat) {s : SSt m} (h : Valid s.used) :
    s.step c x draw round = .error .nan ∨ ∃ q', s.step c x draw round = .ok { s with qOldF := s.qOld, qOld := s.q, q := q' } := by
  obtain ⟨⟨n, sub, st⟩, hd⟩ := decode_valid h
  simp only [SSt.step, hd]
  split
  · exact .inl rfl
  · exact .inr ⟨_, rfl⟩

/-- What the symmetric loop does. -/
theorem symm_run {c : FCfg} {x : List (Vec m)} {draw : Nat → List (Vec m)}
    {root : Matrix (Fin m) (Fin m) ℝ → Option (Matrix (Fin m) (Fin m) ℝ)} (n : Nat) : ∀ s : SSt m, Valid s.used →
      (∃ s', s.run c x draw root n = .ok s' ∧ s'.conv.length ≤ s.conv.length + n ∧
        (∃ q h, root (qᵀ * q) = some h ∧ s'.q = q * h) ∧ change s'.q s'.qOld < c.limit ∧
        s'.conv.getLast? = some (change s'.q s'.qOld) ∧ (c.fineG.isSome → s'.fine = true)) ∨
      s.run c x draw root n = .error .convergence ∨ s.run c x draw root n = .error .nan := by
  induction n with
  | zero => intro s _; right; left; rfl
  | succ n ih =>
    intro s hs
    simp only [SSt.run]
    cases hr : root (s.qᵀ * s.q) with
    | none => right; right; rfl
    | some h =>
      simp only
      obtain ⟨used, co, e1, h1⟩ := coarsen_fields c { s with q := s.q * h, conv := s.conv ++ [change (s.q * h) s.qOld] }
        (change (s.q * h) s.qOld)
      rw [e1]
      simp only
      have key : ∀ t : SSt m, Valid t.used → t.conv.length = s.conv.length + 1 →
          (∃ s', (match t.step c x draw (c.maxIt - (n + 1)) with
            | .error e => (.error e : Except Err (SSt m))
            | .ok s' => s'.run c x draw root n) = .ok s' ∧ s'.conv.length ≤ s.conv.length + (n + 1) ∧
            (∃ q h, root (qᵀ * q) = some h ∧ s'.q = q * h) ∧ change s'.q s'.qOld < c.limit ∧
            s'.conv.getLast? = some (change s'.q s'.qOld) ∧ (c.fineG.isSome → s'.fine = true)) ∨
          (match t.step c x draw (c.maxIt - (n + 1)) with
            | .error e => (.error e : Except Err (SSt m))
            | .ok s' => s'.run c x draw root n) = .error .convergence ∨
          (match t.step c x draw (c.maxIt - (n + 1)) with
            | .error e => (.error e : Except Err (SSt m))
            | .ok s' => s'.run c x draw root n) = .error .nan := by
        intro t ht hc
        rcases symm_step_ok c x draw (c.maxIt - (n + 1)) ht with e | ⟨q', e⟩
        · rw [e]; exact .inr (.inr rfl)
        · rw [e]
          rcases ih { t with qOldF := t.qOld, qOld := t.q, q := q' } ht with ⟨s', e2, h2, h3⟩ | h2 | h2
          · simp only at h2
            exact .inl ⟨s', e2, by omega, h3⟩
          · exact .inr (.inl h2)
          · exact .inr (.inr h2)
      split_ifs with h2 h3
      · obtain ⟨mu, st, used', lng, e2, h4⟩ := symm_damp_fields c (c.maxIt - (n + 1)) (SSt.tune c { s with
          q := s.q * h, conv := s.conv ++ [change (s.q * h) s.qOld], used := used, coarse := co }) (change (s.q * h) s.qOldF)
        rw [e2]
        exact key _ (h4 (gFine_valid c)) (by simp [SSt.tune])
      · left
        refine ⟨_, rfl, by simp only [List.length_append, List.length_singleton]; omega, ⟨s.q, h, hr, rfl⟩, h2, by simp, fun h4 => ?_⟩
        by_contra h5
        exact h3 ⟨h4, by simpa using h5⟩
      · obtain ⟨mu, st, used', lng, e2, h4⟩ := symm_damp_fields c (c.maxIt - (n + 1)) { s with
          q := s.q * h, conv := s.conv ++ [change (s.q * h) s.qOld], used := used, coarse := co } (change (s.q * h) s.qOldF)
        rw [e2]
        exact key _ (h4 (h1 hs)) (by simp)

/-- With the symmetric approach the core routine ends, for all data, parameters and random samples, within `max_it` rounds: with the
exception for no convergence, with `nan`, or with orthogonal filters that differ from those of the round before by less than the limit. The
exception for an unknown nonlinearity is never raised. If fine-tuning was asked for, it has been done. -/
theorem fast_symm (c : FCfg) (x : List (Vec m)) (draw : Nat → List (Vec m))
    {root : Matrix (Fin m) (Fin m) ℝ → Option (Matrix (Fin m) (Fin m) ℝ)} (hr : Root root) (guess : Matrix (Fin m) (Fin m) ℝ) :
    (∃ s, fastSymm c x draw root guess = .ok s ∧ s.qᵀ * s.q = 1 ∧ s.q * s.qᵀ = 1 ∧ s.conv.length ≤ c.maxIt ∧
      (∃ v, s.conv.getLast? = some v ∧ v < c.limit ∧ ∀ k, 1 - v ≤ |∑ a, s.q a k * s.qOld a k|) ∧ (c.fineG.isSome → s.fine = true)) ∨
    fastSymm c x draw root guess = .error .convergence ∨ fastSymm c x draw root guess = .error .nan := by
  rcases symm_run (c := c) (x := x) (draw := draw) (root := root) c.maxIt ⟨guess, 0, 0, c.mu, 0, c.gOrig, false, false, false, []⟩
    (gOrig_valid c) with ⟨s, e, h1, ⟨q, h, h2, h3⟩, h4, h5, h6⟩ | e | e
  · left
    have h7 : s.qᵀ * s.q = 1 := by rw [h3]; exact symm_orthogonalised hr h2
    refine ⟨s, e, h7, mul_eq_one_comm.1 h7, by simpa using h1, ⟨_, h5, h4, fun k => ?_⟩, h6⟩
    have h8 : (⨅ k, |(s.qᵀ * s.qOld) k k|) ≤ |(s.qᵀ * s.qOld) k k| := ciInf_le (Set.finite_range _).bddBelow k
    have h9 : (s.qᵀ * s.qOld) k k = ∑ a, s.q a k * s.qOld a k := by simp [mul_apply]
    simp only [change, sub_sub_cancel]
    rw [← h9]
    exact h8
  · exact .inr (.inl e)
  · exact .inr (.inr e)

/-- The inverse square root for the matrices of the example. -/
noncomputable def twoRoots (a : Matrix (Fin 2) (Fin 2) ℝ) : Option (Matrix (Fin 2) (Fin 2) ℝ) :=
  open Classical in if a = 1 then some 1 else if a = (4 : ℝ) • (1 : Matrix (Fin 2) (Fin 2) ℝ) then some ((1 / 2 : ℝ) • (1 : Matrix (Fin 2) (Fin 2) ℝ)) else none

theorem twoRoots_root : Root twoRoots := by
  intro a h _ e
  simp only [twoRoots] at e
  split_ifs at e with h1 h2
  · injection e with e; subst e h1; simp
  · injection e with e
    subst e h2
    refine ⟨by simp, ?_⟩
    simp only [smul_mul_smul_comm, mul_one, smul_smul]
    norm_num

/-- The two binary signals with the symmetric approach: two rounds. -/
example : ∃ s, fastSymm ⟨.pow3, none, 1, 1, 1, 1, 100, 100, 5, none, 1 / 10⟩ binary (fun _ => []) twoRoots 1 = .ok s ∧ s.q = -1 ∧
    s.conv = [1, 0] := by
  have h1 : twoRoots ((1 : Matrix (Fin 2) (Fin 2) ℝ)ᵀ * 1) = some 1 := by simp [twoRoots]
  have hp : ∀ c : FCfg, c.plainM .pow3 binary 1 = (-2 : ℝ) • (1 : Matrix (Fin 2) (Fin 2) ℝ) := by
    intro c
    ext a k
    fin_cases a <;> fin_cases k <;>
      simp [FCfg.plainM, avg, binary, FCfg.fn, FCfg.dfn, dotProduct, Fin.sum_univ_two, col_apply, one_apply] <;> norm_num
  have h2 : twoRoots (((-2 : ℝ) • (1 : Matrix (Fin 2) (Fin 2) ℝ))ᵀ * ((-2 : ℝ) • (1 : Matrix (Fin 2) (Fin 2) ℝ))) =
      some ((1 / 2 : ℝ) • (1 : Matrix (Fin 2) (Fin 2) ℝ)) := by
    have e1 : ((-2 : ℝ) • (1 : Matrix (Fin 2) (Fin 2) ℝ))ᵀ * ((-2 : ℝ) • (1 : Matrix (Fin 2) (Fin 2) ℝ)) =
        (4 : ℝ) • (1 : Matrix (Fin 2) (Fin 2) ℝ) := by
      rw [transpose_smul, transpose_one, smul_mul_smul_comm, mul_one]; norm_num
    have e2 : (4 : ℝ) • (1 : Matrix (Fin 2) (Fin 2) ℝ) ≠ 1 := by
      intro h
      have := congrFun (congrFun h 0) 0
      simp at this
    rw [e1, twoRoots, if_neg e2, if_pos rfl]
  have hd : decode (FCfg.gOrig ⟨.pow3, none, 1, 1, 1, 1, 100, 100, 5, none, 1 / 10⟩) = some (.pow3, false, false) :=
    decode_default rfl rfl
  have c1 : change (1 * 1 : Matrix (Fin 2) (Fin 2) ℝ) 0 = 1 := by simp [change]
  have e3 : ((-2 : ℝ) • (1 : Matrix (Fin 2) (Fin 2) ℝ)) * ((1 / 2 : ℝ) • (1 : Matrix (Fin 2) (Fin 2) ℝ)) = -1 := by
    rw [smul_mul_smul_comm, mul_one]; norm_num
  have c2 : change (-1 : Matrix (Fin 2) (Fin 2) ℝ) 1 = 0 := by simp [change]
  have hlim : ¬ ((1 : ℝ) < 1 / 10) := by norm_num
  have hlim2 : (0 : ℝ) < 1 / 10 := by norm_num
  have hn : (FCfg.maxIt ⟨.pow3, none, 1, 1, 1, 1, 100, 100, 5, none, 1 / 10⟩) = 98 + 1 + 1 := rfl
  rw [fastSymm, hn, SSt.run]
  simp only [h1, c1, SSt.coarsen, SSt.damp, FCfg.stab, SSt.step, hd, hlim, hp]
  simp only [ne_eq, reduceCtorEq, not_false_eq_true, false_and, exists_false, and_false, and_true,
    if_false, not_true_eq_false, Bool.false_eq_true]
  rw [hd]
  simp only [Bool.false_eq_true, if_false]
  rw [SSt.run]
  simp only [mul_one, hp, h2, e3, c2, SSt.coarsen, hlim2]
  simp


end Mdp.Ica
