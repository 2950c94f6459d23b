import Verif.Extension.Model
import Mathlib.Data.List.Basic
import Mathlib.Tactic.Push

/-!
# Lemmas about activation and deactivation
-/

namespace Mdp.Ext

open Py

variable {C A V E : Type} [DecidableEq C] [DecidableEq A] [DecidableEq V] [DecidableEq E]

/-! ## Specification vocabulary -/

/-- The method resolution orders are those of an acyclic inheritance hierarchy. -/
structure Laws (L : Layout C V) : Prop where
  irrefl : ∀ c, c ∉ L.anc c
  trans : ∀ c d, d ∈ L.anc c → ∀ x ∈ L.anc d, x ∈ L.anc c

/-- A value that `getattr` returns as it is: a function or data, but no static method or class method. -/
def Plain (L : Layout C V) (v : V) : Prop := ∀ d, L.bind d v = v

/-- The class `c` has the attribute `a` in `es`. -/
def Declares (es : List (C × A × V)) (c : C) (a : A) : Prop := ∃ v, (c, a, v) ∈ es

/-- What the round trip needs of an extension with the entries `es` and of the classes, whose dictionaries are `s`. -/
structure Fits (L : Layout C V) (s : S C A V E) (es : List (C × A × V)) : Prop where
  /-- a dictionary has every key once -/
  nodup : (es.map fun x => (x.1, x.2.1)).Nodup
  /-- no other extension is active for these attributes of these classes -/
  free : ∀ c a, Declares es c a → s.tag c a = none ∧ s.orig c a = none
  /-- functions and data -/
  plainS : ∀ c a, Declares es c a → ∀ d w, s.attr d a = some w → Plain L w
  plainE : ∀ c a v, (c, a, v) ∈ es → Plain L v
  /-- an attribute that the class itself defines is not `None`, is not the same object as that of an ancestor, and no
  ancestor has been extended before the class -/
  ownNone : ∀ c a, Declares es c a → s.attr c a ≠ some L.pyNone
  ownDiff : ∀ c a, Declares es c a → ∀ w, s.attr c a = some w → ∀ x ∈ L.anc c, s.attr x a ≠ some w ∧ (x, a, w) ∉ es
  ownFirst : ∀ pre c a v post, es = pre ++ (c, a, v) :: post → s.attr c a ≠ none →
    ∀ x ∈ L.anc c, s.tag x a = none ∧ ¬ Declares pre x a
  /-- an attribute that the class inherits is not extended in an ancestor afterwards -/
  inhLast : ∀ pre c a v post, es = pre ++ (c, a, v) :: post → s.attr c a = none → find L s.attr c a ≠ none →
    ∀ x ∈ L.anc c, ¬ Declares post x a

/-- The class dictionaries agree for one attribute of one class. -/
def SameKey (s t : S C A V E) (c : C) (a : A) : Prop :=
  t.attr c a = s.attr c a ∧ t.orig c a = s.orig c a ∧ t.tag c a = s.tag c a

/-- How an attribute of a class looks while the extension `e` is active for it; `s` is how it looked before. -/
def Extended (L : Layout C V) (s : S C A V E) (e : E) (c : C) (a : A) (v : V) (t : S C A V E) : Prop :=
  t.attr c a = some v ∧ t.tag c a = some e ∧
  (∀ w, s.attr c a = some w → t.orig c a = some w) ∧
  (s.attr c a = none → t.orig c a = none ∨ ∃ w, t.orig c a = some w ∧ find L s.attr c a = some w)

/-! ## Auxiliary facts -/

@[simp] theorem upd_same {W : Type} (f : C → A → Option W) (c : C) (a : A) (w : Option W) : upd f c a w c a = w := by
  simp [upd]

theorem upd_other {W : Type} (f : C → A → Option W) (c : C) (a : A) (w : Option W) (c' : C) (a' : A)
    (h : ¬ (c' = c ∧ a' = a)) : upd f c a w c' a' = f c' a' := by simp [upd, h]

omit [DecidableEq C] [DecidableEq A] [DecidableEq V] in
theorem find_some {W : Type} {L : Layout C V} {f : C → A → Option W} {c : C} {a : A} {w : W} (h : find L f c a = some w) :
    ∃ d ∈ c :: L.anc c, f d a = some w := by
  unfold find at h
  obtain ⟨d, hd, h⟩ := List.exists_of_findSome?_eq_some h
  exact ⟨d, hd, h⟩

omit [DecidableEq C] [DecidableEq A] [DecidableEq V] in
theorem find_none {W : Type} {L : Layout C V} {f : C → A → Option W} {c : C} {a : A} :
    find L f c a = none ↔ ∀ d ∈ c :: L.anc c, f d a = none := by
  unfold find
  exact List.findSome?_eq_none_iff

omit [DecidableEq C] [DecidableEq A] [DecidableEq V] in
theorem find_congr {W : Type} {L : Layout C V} {f g : C → A → Option W} {c : C} {a : A}
    (h : ∀ d ∈ c :: L.anc c, f d a = g d a) : find L f c a = find L g c a := by
  unfold find
  generalize c :: L.anc c = l at h
  induction l with
  | nil => rfl
  | cons d r ih =>
    rw [List.findSome?_cons, List.findSome?_cons, h d (by simp), ih fun d hd => h d (by simp [hd])]

omit [DecidableEq C] [DecidableEq A] [DecidableEq V] in
theorem find_own {W : Type} {L : Layout C V} {f : C → A → Option W} {c : C} {a : A} {w : W} (h : f c a = some w) :
    find L f c a = some w := by
  unfold find; rw [List.findSome?_cons, h]

omit [DecidableEq C] [DecidableEq A] [DecidableEq V] in
theorem find_inherited {W : Type} {L : Layout C V} {f : C → A → Option W} {c : C} {a : A} {w : W} (h : f c a = none)
    (h' : find L f c a = some w) : ∃ d ∈ L.anc c, f d a = some w := by
  obtain ⟨d, hd, h1⟩ := find_some h'
  rcases List.mem_cons.1 hd with rfl | hd
  · rw [h] at h1; cases h1
  · exact ⟨d, hd, h1⟩

/-! ## Activation -/

theorem actOne_ext (L : Layout C V) (e : E) (s t : S C A V E) (pre : List (C × A × V)) (c : C) (a : A) (v : V)
    (post : List (C × A × V)) (es : List (C × A × V)) (hes : es = pre ++ (c, a, v) :: post) (hf : Fits L s es)
    (hkey : SameKey s t c a) (hanc : ∀ x ∈ L.anc c, ¬ Declares pre x a → t.attr x a = s.attr x a ∧ t.tag x a = s.tag x a)
    (hpre : ∀ x ∈ L.anc c, Declares pre x a → t.tag x a ≠ none) :
    ∃ t', actOne L e c a v t = (.ok (), t') ∧ Extended L s e c a v t' ∧ t'.active = t.active ∧ t'.log = t.log ∧
      ∀ c' a', ¬ (c' = c ∧ a' = a) → SameKey t t' c' a' := by
  have hd : Declares es c a := ⟨v, by rw [hes]; simp⟩
  obtain ⟨ht, ho⟩ := hf.free c a hd
  obtain ⟨k1, k2, k3⟩ := hkey
  have hrest : ∀ (o : C → A → Option V), (o = t.orig ∨ ∃ w, o = upd t.orig c a w) →
      ∀ c' a', ¬ (c' = c ∧ a' = a) → SameKey t ⟨upd t.attr c a (some v), o, upd t.tag c a (some e), t.active, t.log⟩ c' a' := by
    intro o ho c' a' h
    refine ⟨upd_other _ _ _ _ _ _ h, ?_, upd_other _ _ _ _ _ _ h⟩
    rcases ho with rfl | ⟨w, rfl⟩
    · rfl
    · exact upd_other _ _ _ _ _ _ h
  unfold actOne getattr
  cases hfd : find L t.attr c a with
  | none =>
    have hno : s.attr c a = none := by rw [← k1]; exact (find_none.1 hfd) c (by simp)
    refine ⟨_, rfl, ⟨upd_same _ _ _ _, upd_same _ _ _ _, ?_, fun _ => .inl ?_⟩, rfl, rfl, hrest _ (.inl rfl)⟩
    · intro w hw; rw [hno] at hw; cases hw
    · show t.orig c a = none
      rw [k2, ho]
  | some o =>
    simp only [Option.map_some]
    rw [if_neg (by rw [k3, ht]; simp)]
    cases hft : find L t.tag c a with
    | none =>
      have hnp : ∀ x ∈ L.anc c, ¬ Declares pre x a := fun x hx hdx =>
        hpre x hx hdx (find_none.1 hft x (by simp [hx]))
      have hfs : find L s.attr c a = some o := by
        rw [← hfd]
        refine find_congr fun d hd => ?_
        rcases List.mem_cons.1 hd with rfl | hd
        · exact k1.symm
        · exact (hanc d hd (hnp d hd)).1.symm
      have hplain : L.bind c o = o := by
        obtain ⟨d, _, h⟩ := find_some hfs
        exact hf.plainS c a hd d o h c
      refine ⟨_, rfl, ⟨upd_same _ _ _ _, upd_same _ _ _ _, ?_, fun _ => .inr ⟨o, ?_, hfs⟩⟩, rfl, rfl, hrest _ (.inr ⟨_, rfl⟩)⟩
      · intro w hw
        have := find_own (L := L) hw
        rw [hfs] at this
        cases this
        show upd t.orig c a _ c a = _
        rw [upd_same, hplain]
      · show upd t.orig c a _ c a = _
        rw [upd_same, hplain]
    | some e' =>
      refine ⟨_, rfl, ⟨upd_same _ _ _ _, upd_same _ _ _ _, ?_, fun _ => .inl ?_⟩, rfl, rfl, hrest _ (.inl rfl)⟩
      · intro w hw
        exfalso
        obtain ⟨d, hd', hdt⟩ := find_some hft
        rcases List.mem_cons.1 hd' with rfl | hd'
        · rw [k3, ht] at hdt; cases hdt
        · obtain ⟨g1, g2⟩ := hf.ownFirst pre c a v post hes (by rw [hw]; simp) d hd'
          rw [(hanc d hd' g2).2, g1] at hdt
          cases hdt
      · show t.orig c a = none
        rw [k2, ho]

theorem declares_append {p q : List (C × A × V)} {c : C} {a : A} : Declares (p ++ q) c a ↔ Declares p c a ∨ Declares q c a := by
  unfold Declares
  simp only [List.mem_append]
  constructor
  · rintro ⟨v, h | h⟩
    · exact .inl ⟨v, h⟩
    · exact .inr ⟨v, h⟩
  · rintro (⟨v, h⟩ | ⟨v, h⟩)
    · exact ⟨v, .inl h⟩
    · exact ⟨v, .inr h⟩

theorem nodup_split {es pre post : List (C × A × V)} {c : C} {a : A} {v : V} (h : es = pre ++ (c, a, v) :: post)
    (hn : (es.map fun x => (x.1, x.2.1)).Nodup) : ¬ Declares pre c a ∧ ¬ Declares post c a := by
  rw [h, List.map_append, List.map_cons, List.nodup_append] at hn
  obtain ⟨-, h2, h3⟩ := hn
  constructor
  · rintro ⟨w, hw⟩
    exact h3 (c, a) (List.mem_map.2 ⟨_, hw, rfl⟩) (c, a) (by simp) rfl
  · rintro ⟨w, hw⟩
    exact (List.nodup_cons.1 h2).1 (List.mem_map.2 ⟨_, hw, rfl⟩)

/-- Activating on classes that, as far as they are concerned, look as in `s`. -/
theorem actAll_ext (L : Layout C V) (e : E) (s : S C A V E) (es : List (C × A × V)) (hf : Fits L s es)
    (pre todo : List (C × A × V)) (hes : es = pre ++ todo) (t : S C A V E)
    (hdone : ∀ c a v, (c, a, v) ∈ pre → Extended L s e c a v t)
    (hrest : ∀ c a, Declares es c a → ¬ Declares pre c a → SameKey s t c a)
    (hanc : ∀ c a, Declares es c a → ∀ x ∈ L.anc c, ¬ Declares pre x a → t.attr x a = s.attr x a ∧ t.tag x a = s.tag x a) :
    ∃ t', actAll L e todo t = (.ok (), t') ∧ (∀ c a v, (c, a, v) ∈ es → Extended L s e c a v t') ∧
      t'.active = t.active ∧ t'.log = t.log ∧ ∀ c a, ¬ Declares todo c a → SameKey t t' c a := by
  induction todo generalizing pre t with
  | nil =>
    refine ⟨t, rfl, ?_, rfl, rfl, fun _ _ _ => ⟨rfl, rfl, rfl⟩⟩
    rw [hes, List.append_nil]; exact hdone
  | cons x r ih =>
    obtain ⟨c, a, v⟩ := x
    have hd : Declares es c a := ⟨v, by rw [hes]; simp⟩
    obtain ⟨hn1, hn2⟩ := nodup_split hes hf.nodup
    obtain ⟨t1, h1, h2, h3, h4, h5⟩ := actOne_ext L e s t pre c a v r es hes hf (hrest c a hd hn1)
      (fun x hx hx' => hanc c a hd x hx hx') (fun x hx ⟨u, hu⟩ => by rw [(hdone x a u hu).2.1]; simp)
    have hap : es = (pre ++ [(c, a, v)]) ++ r := by rw [hes]; simp
    have hone : ∀ c' a', Declares [(c, a, v)] c' a' ↔ c' = c ∧ a' = a := by
      intro c' a'
      unfold Declares
      constructor
      · rintro ⟨w, hw⟩
        simp at hw
        exact ⟨hw.1, hw.2.1⟩
      · rintro ⟨rfl, rfl⟩
        exact ⟨v, by simp⟩
    obtain ⟨t2, g1, g2, g3, g4, g5⟩ := ih (pre ++ [(c, a, v)]) hap t1
      (by
        intro c' a' v' hm
        rcases List.mem_append.1 hm with hm' | hm'
        · have hne : ¬ (c' = c ∧ a' = a) := by rintro ⟨rfl, rfl⟩; exact hn1 ⟨v', hm'⟩
          obtain ⟨k1, k2, k3⟩ := h5 c' a' hne
          obtain ⟨e1, e2, e3, e4⟩ := hdone c' a' v' hm'
          exact ⟨k1.trans e1, k3.trans e2, fun w hw => k2.trans (e3 w hw), fun hh => by rw [k2]; exact e4 hh⟩
        · simp at hm'
          obtain ⟨rfl, rfl, rfl⟩ := hm'
          exact h2)
      (by
        intro c' a' hd' hnp
        rw [declares_append, hone] at hnp
        push Not at hnp
        obtain ⟨k1, k2, k3⟩ := h5 c' a' (by rintro ⟨e1, e2⟩; exact hnp.2 e1 e2)
        obtain ⟨e1, e2, e3⟩ := hrest c' a' hd' hnp.1
        exact ⟨k1.trans e1, k2.trans e2, k3.trans e3⟩)
      (by
        intro c' a' hd' x hx hnp
        rw [declares_append, hone] at hnp
        push Not at hnp
        obtain ⟨k1, k2, k3⟩ := h5 x a' (by rintro ⟨e1, e2⟩; exact hnp.2 e1 e2)
        obtain ⟨e1, e3⟩ := hanc c' a' hd' x hx hnp.1
        exact ⟨k1.trans e1, k3.trans e3⟩)
    refine ⟨t2, ?_, g2, g3.trans h3, g4.trans h4, ?_⟩
    · show (actOne L e c a v >>= fun _ => actAll L e r) t = _
      rw [M.bind_ok h1, g1]
    · intro c' a' hnd
      have h6 : ¬ (c' = c ∧ a' = a) := by rintro ⟨rfl, rfl⟩; exact hnd ⟨v, by simp⟩
      have h7 : ¬ Declares r c' a' := fun ⟨w, hw⟩ => hnd ⟨w, by simp [hw]⟩
      obtain ⟨k1, k2, k3⟩ := h5 c' a' h6
      obtain ⟨e1, e2, e3⟩ := g5 c' a' h7
      exact ⟨e1.trans k1, e2.trans k2, e3.trans k3⟩

/-! ## Deactivation -/

theorem deactOne_restores (L : Layout C V) (hL : Laws L) (e : E) (s t : S C A V E) (pre : List (C × A × V)) (c : C) (a : A) (v : V)
    (post : List (C × A × V)) (es : List (C × A × V)) (hes : es = pre ++ (c, a, v) :: post) (hf : Fits L s es)
    (hext : Extended L s e c a v t) (hpost : ∀ x u, (x, a, u) ∈ post → t.attr x a = some u)
    (hanc : ∀ x ∈ L.anc c, ¬ Declares post x a → t.attr x a = s.attr x a) :
    ∃ t', deactOne L c a t = (.ok (), t') ∧ SameKey s t' c a ∧ t'.active = t.active ∧ t'.log = t.log ∧
      ∀ c' a', ¬ (c' = c ∧ a' = a) → SameKey t t' c' a' := by
  have hd : Declares es c a := ⟨v, by rw [hes]; simp⟩
  obtain ⟨ht, ho⟩ := hf.free c a hd
  obtain ⟨x1, x2, x3, x4⟩ := hext
  have hancu : ∀ x ∈ L.anc c, ∀ y ∈ x :: L.anc x, y ∈ L.anc c ∧ y ≠ c := by
    intro x hx y hy
    have : y ∈ L.anc c := by
      rcases List.mem_cons.1 hy with rfl | hy
      · exact hx
      · exact hL.trans c x hx y hy
    exact ⟨this, by rintro rfl; exact hL.irrefl _ this⟩
  cases hs : s.attr c a with
  | some w =>
    have hw := x3 w hs
    have hb : L.bind c w = w := hf.plainS c a hd c w hs c
    have hall : ((L.anc c).all fun x => decide ((getattr L (upd t.attr c a none) x a).getD L.pyNone ≠ w)) = true := by
      rw [List.all_eq_true]
      intro x hx
      rw [decide_eq_true_iff]
      intro heq
      unfold getattr at heq
      cases hfd : find L (upd t.attr c a none) x a with
      | none =>
        rw [hfd] at heq
        exact hf.ownNone c a hd (by rw [hs, ← heq]; rfl)
      | some u =>
        rw [hfd] at heq
        obtain ⟨y, hy, hu⟩ := find_some hfd
        obtain ⟨hya, hyc⟩ := hancu x hx y hy
        rw [upd_other _ _ _ _ _ _ (fun h => hyc h.1)] at hu
        by_cases hdy : Declares post y a
        · obtain ⟨u', hu'⟩ := hdy
          rw [hpost y u' hu'] at hu
          cases hu
          have hm : (y, a, u) ∈ es := by rw [hes]; simp [hu']
          have : L.bind x u = u := hf.plainE y a u hm x
          simp only [Option.map_some, Option.getD_some, this] at heq
          subst heq
          exact (hf.ownDiff c a hd u hs y hya).2 hm
        · rw [hanc y hya hdy] at hu
          have : L.bind x u = u := hf.plainS c a hd y u hu x
          simp only [Option.map_some, Option.getD_some, this] at heq
          subst heq
          exact (hf.ownDiff c a hd u hs y hya).1 hu
    unfold deactOne
    rw [hw]
    simp only [x1, Option.isNone_some, Bool.false_eq_true, if_false, hb]
    rw [if_pos hall]
    refine ⟨_, rfl, ⟨?_, ?_, ?_⟩, rfl, rfl, fun c' a' h => ⟨?_, upd_other _ _ _ _ _ _ h, upd_other _ _ _ _ _ _ h⟩⟩
    · show upd _ c a _ c a = _
      rw [upd_same, hs]
    · show upd _ c a _ c a = _
      rw [upd_same, ho]
    · show upd _ c a _ c a = _
      rw [upd_same, ht]
    · show upd _ c a _ c' a' = _
      rw [upd_other _ _ _ _ _ _ h, upd_other _ _ _ _ _ _ h]
  | none =>
    rcases x4 hs with hw | ⟨w, hw, hfs⟩
    · unfold deactOne
      rw [hw]
      refine ⟨_, rfl, ⟨?_, ?_, ?_⟩, rfl, rfl, fun c' a' h => ⟨upd_other _ _ _ _ _ _ h, rfl, upd_other _ _ _ _ _ _ h⟩⟩
      · show upd _ c a _ c a = _
        rw [upd_same, hs]
      · show t.orig c a = _
        rw [hw, ho]
      · show upd _ c a _ c a = _
        rw [upd_same, ht]
    · obtain ⟨d, hda, hdw⟩ := find_inherited hs hfs
      have hb : ∀ x, L.bind x w = w := hf.plainS c a hd d w hdw
      have hnp := hf.inhLast pre c a v post hes hs (by rw [hfs]; simp)
      have hall : ¬ ((L.anc c).all fun x => decide ((getattr L (upd t.attr c a none) x a).getD L.pyNone ≠ w)) = true := by
        intro hh
        rw [List.all_eq_true] at hh
        have := hh d hda
        rw [decide_eq_true_iff] at this
        apply this
        have : upd t.attr c a none d a = some w := by
          rw [upd_other _ _ _ _ _ _ (fun h => by rw [h.1] at hda; exact hL.irrefl c hda), hanc d hda (hnp d hda), hdw]
        unfold getattr
        rw [find_own this]
        simp [hb]
      unfold deactOne
      rw [hw]
      simp only [x1, Option.isNone_some, Bool.false_eq_true, if_false, hb]
      rw [if_neg hall]
      refine ⟨_, rfl, ⟨?_, ?_, ?_⟩, rfl, rfl, fun c' a' h => ⟨upd_other _ _ _ _ _ _ h, upd_other _ _ _ _ _ _ h, upd_other _ _ _ _ _ _ h⟩⟩
      · show upd _ c a _ c a = _
        rw [upd_same, hs]
      · show upd _ c a _ c a = _
        rw [upd_same, ho]
      · show upd _ c a _ c a = _
        rw [upd_same, ht]

/-- Deactivating restores what was there at activation, for all classes of the extension. -/
theorem deactAll_restores (L : Layout C V) (hL : Laws L) (e : E) (s : S C A V E) (es : List (C × A × V)) (hf : Fits L s es)
    (pre todo : List (C × A × V)) (hes : es = pre ++ todo) (t : S C A V E)
    (hdone : ∀ c a, Declares pre c a → SameKey s t c a)
    (hrest : ∀ c a v, (c, a, v) ∈ todo → Extended L s e c a v t)
    (hanc : ∀ c a, Declares es c a → ∀ x ∈ L.anc c, ¬ Declares todo x a → t.attr x a = s.attr x a) :
    ∃ t', deactAll L todo t = (.ok (), t') ∧ (∀ c a, Declares es c a → SameKey s t' c a) ∧
      t'.active = t.active ∧ t'.log = t.log ∧ ∀ c a, ¬ Declares todo c a → SameKey t t' c a := by
  induction todo generalizing pre t with
  | nil =>
    refine ⟨t, rfl, ?_, rfl, rfl, fun _ _ _ => ⟨rfl, rfl, rfl⟩⟩
    rw [hes, List.append_nil]; exact hdone
  | cons x r ih =>
    obtain ⟨c, a, v⟩ := x
    have hd : Declares es c a := ⟨v, by rw [hes]; simp⟩
    obtain ⟨hn1, hn2⟩ := nodup_split hes hf.nodup
    have hcons : ∀ c' a', Declares ((c, a, v) :: r) c' a' ↔ (c' = c ∧ a' = a) ∨ Declares r c' a' := by
      intro c' a'
      unfold Declares
      constructor
      · rintro ⟨w, hw⟩
        simp at hw
        rcases hw with ⟨h1, h2, -⟩ | hw
        · exact .inl ⟨h1, h2⟩
        · exact .inr ⟨w, hw⟩
      · rintro (⟨rfl, rfl⟩ | ⟨w, hw⟩)
        · exact ⟨v, by simp⟩
        · exact ⟨w, by simp [hw]⟩
    obtain ⟨t1, h1, h2, h3, h4, h5⟩ := deactOne_restores L hL e s t pre c a v r es hes hf (hrest c a v (by simp))
      (fun x u hu => (hrest x a u (by simp [hu])).1)
      (fun x hx hx' => hanc c a hd x hx (by
        rw [hcons]
        rintro (⟨h, -⟩ | h)
        · rw [h] at hx; exact hL.irrefl c hx
        · exact hx' h))
    have hap : es = (pre ++ [(c, a, v)]) ++ r := by rw [hes]; simp
    have hone : ∀ c' a', Declares [(c, a, v)] c' a' ↔ c' = c ∧ a' = a := by
      intro c' a'
      unfold Declares
      constructor
      · rintro ⟨w, hw⟩
        simp at hw
        exact ⟨hw.1, hw.2.1⟩
      · rintro ⟨rfl, rfl⟩
        exact ⟨v, by simp⟩
    obtain ⟨t2, g1, g2, g3, g4, g5⟩ := ih (pre ++ [(c, a, v)]) hap t1
      (by
        intro c' a' hm
        rw [declares_append, hone] at hm
        by_cases hk : c' = c ∧ a' = a
        · obtain ⟨rfl, rfl⟩ := hk; exact h2
        · obtain ⟨k1, k2, k3⟩ := h5 c' a' hk
          obtain ⟨e1, e2, e3⟩ := hdone c' a' (hm.resolve_right hk)
          exact ⟨k1.trans e1, k2.trans e2, k3.trans e3⟩)
      (by
        intro c' a' v' hm
        have hne : ¬ (c' = c ∧ a' = a) := by rintro ⟨rfl, rfl⟩; exact hn2 ⟨v', hm⟩
        obtain ⟨k1, k2, k3⟩ := h5 c' a' hne
        obtain ⟨e1, e2, e3, e4⟩ := hrest c' a' v' (by simp [hm])
        exact ⟨k1.trans e1, k3.trans e2, fun w hw => k2.trans (e3 w hw), fun hh => by rw [k2]; exact e4 hh⟩)
      (by
        intro c' a' hd' x hx hnp
        by_cases hk : x = c ∧ a' = a
        · obtain ⟨rfl, rfl⟩ := hk; exact h2.1
        · rw [(h5 x a' hk).1]
          exact hanc c' a' hd' x hx (by rw [hcons]; rintro (h | h); exacts [hk h, hnp h]))
    refine ⟨t2, ?_, g2, g3.trans h3, g4.trans h4, ?_⟩
    · show (deactOne L c a >>= fun _ => deactAll L r) t = _
      rw [M.bind_ok h1, g1]
    · intro c' a' hnd
      rw [hcons] at hnd
      push Not at hnd
      obtain ⟨k1, k2, k3⟩ := h5 c' a' (by rintro ⟨e1, e2⟩; exact hnd.1 e1 e2)
      obtain ⟨e1, e2, e3⟩ := g5 c' a' hnd.2
      exact ⟨e1.trans k1, e2.trans k2, e3.trans k3⟩

end Mdp.Ext
