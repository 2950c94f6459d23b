import Verif.Extension.Props

/-!
# Extensions: values in force, round trips (C35, second half of C36)
-/

namespace Mdp.Ext

open Py

variable {C A V E : Type} [DecidableEq C] [DecidableEq A] [DecidableEq V] [DecidableEq E]

/-! ## C36, second half -/

/-- The extension `e` is in force: all attributes it declares have its values in the dictionaries of the classes. -/
def InForce (reg : E → Option (ExtDef C A V)) (e : E) (s : S C A V E) : Prop :=
  ∀ x, reg e = some x → ∀ c a v, (c, a, v) ∈ x.entries → s.attr c a = some v

/-- Active extensions are in force and the markers are theirs. -/
structure J (reg : E → Option (ExtDef C A V)) (s : S C A V E) : Prop where
  tidy : Tidy s
  known : ∀ e ∈ s.active, reg e ≠ none
  on : ∀ e ∈ s.active, InForce reg e s
  mark : ∀ e ∈ s.active, ∀ x, reg e = some x → ∀ c a, Declares x.entries c a → s.tag c a = some e
  only : ∀ c a e, s.tag c a = some e → e ∈ s.active ∧ ∃ x, reg e = some x ∧ Declares x.entries c a

/-- Dictionaries have unique keys. -/
def NodupKeys (reg : E → Option (ExtDef C A V)) : Prop :=
  ∀ e x, reg e = some x → (x.entries.map fun y => (y.1, y.2.1)).Nodup

theorem find_isSome {W : Type} {L : Layout C V} {f : C → A → Option W} {c : C} {a : A} (h : f c a ≠ none) :
    find L f c a ≠ none := fun h' => h (find_none.1 h' c (by simp))

/-- One activation step: it fails if a marker is there, else it sets attribute and marker. -/
theorem actOne_cases (L : Layout C V) (e : E) (c : C) (a : A) (v : V) (s : S C A V E)
    (hs : s.tag c a ≠ none → s.attr c a ≠ none) :
    (s.tag c a ≠ none ∧ actOne L e c a v s = (.error .collision, s)) ∨
    (s.tag c a = none ∧ ∃ t, actOne L e c a v s = (.ok (), t) ∧ t.attr = upd s.attr c a (some v) ∧
      t.tag = upd s.tag c a (some e)) := by
  unfold actOne getattr
  cases hf : find L s.attr c a with
  | none =>
    right
    have : s.attr c a = none := find_none.1 hf c (by simp)
    refine ⟨by by_contra hc; exact hs hc this, _, rfl, rfl, rfl⟩
  | some o =>
    cases ht : s.tag c a with
    | some e' => left; simp [ht]
    | none => right; simp [ht]

theorem actAll_cases (L : Layout C V) (e : E) (es : List (C × A × V)) (s : S C A V E)
    (hs : ∀ c a, s.tag c a ≠ none → s.attr c a ≠ none) (hn : (es.map fun y => (y.1, y.2.1)).Nodup) :
    ((∃ c a, Declares es c a ∧ s.tag c a ≠ none) ∧ ∃ t, actAll L e es s = (.error .collision, t)) ∨
    ((∀ c a, Declares es c a → s.tag c a = none) ∧ ∃ t, actAll L e es s = (.ok (), t) ∧
      (∀ c a v, (c, a, v) ∈ es → t.attr c a = some v ∧ t.tag c a = some e) ∧
      ∀ c a, ¬ Declares es c a → t.attr c a = s.attr c a ∧ t.tag c a = s.tag c a) := by
  induction es generalizing s with
  | nil => right; exact ⟨fun c a ⟨v, h⟩ => by simp at h, s, rfl, by simp, fun _ _ _ => ⟨rfl, rfl⟩⟩
  | cons x r ih =>
    obtain ⟨c, a, v⟩ := x
    rw [List.map_cons, List.nodup_cons] at hn
    have hnr : ¬ Declares r c a := fun ⟨w, hw⟩ => hn.1 (List.mem_map.2 ⟨_, hw, rfl⟩)
    rcases actOne_cases L e c a v s (hs c a) with ⟨h1, h2⟩ | ⟨h1, t, h2, h3, h4⟩
    · left
      refine ⟨⟨c, a, ⟨v, by simp⟩, h1⟩, s, ?_⟩
      show (actOne L e c a v >>= fun _ => actAll L e r) s = _
      rw [M.bind_error h2]
    · have hrun : actAll L e ((c, a, v) :: r) s = actAll L e r t := by
        show (actOne L e c a v >>= fun _ => actAll L e r) s = _
        rw [M.bind_ok h2]
      have hother : ∀ c' a', ¬ (c' = c ∧ a' = a) → t.attr c' a' = s.attr c' a' ∧ t.tag c' a' = s.tag c' a' := by
        intro c' a' hk
        rw [h3, h4, upd_other _ _ _ _ _ _ hk, upd_other _ _ _ _ _ _ hk]; exact ⟨rfl, rfl⟩
      have hself : t.attr c a = some v ∧ t.tag c a = some e := by
        rw [h3, h4, upd_same, upd_same]; exact ⟨rfl, rfl⟩
      have hrk : ∀ c' a', Declares r c' a' → ¬ (c' = c ∧ a' = a) := by
        rintro c' a' hd ⟨rfl, rfl⟩; exact hnr hd
      rcases ih t (by
          intro c' a' h
          by_cases hk : c' = c ∧ a' = a
          · obtain ⟨rfl, rfl⟩ := hk; rw [hself.1]; simp
          · rw [(hother c' a' hk).1]; rw [(hother c' a' hk).2] at h; exact hs c' a' h) hn.2 with
        ⟨⟨c', a', g1, g2⟩, w, g3⟩ | ⟨g1, w, g2, g3, g4⟩
      · left
        obtain ⟨u, hu⟩ := g1
        refine ⟨⟨c', a', ⟨u, by simp [hu]⟩, ?_⟩, w, by rw [hrun, g3]⟩
        rwa [(hother c' a' (hrk c' a' ⟨u, hu⟩)).2] at g2
      · right
        refine ⟨?_, w, by rw [hrun, g2], ?_, ?_⟩
        · rintro c' a' ⟨u, hu⟩
          rcases List.mem_cons.1 hu with hu | hu
          · cases hu; exact h1
          · rw [← (hother c' a' (hrk c' a' ⟨u, hu⟩)).2]; exact g1 c' a' ⟨u, hu⟩
        · intro c' a' u hu
          rcases List.mem_cons.1 hu with hu | hu
          · cases hu
            rw [(g4 _ _ hnr).1, (g4 _ _ hnr).2]; exact hself
          · exact g3 c' a' u hu
        · intro c' a' hnd
          have k1 : ¬ (c' = c ∧ a' = a) := by rintro ⟨rfl, rfl⟩; exact hnd ⟨v, by simp⟩
          have k2 : ¬ Declares r c' a' := fun ⟨u, hu⟩ => hnd ⟨u, by simp [hu]⟩
          rw [(g4 _ _ k2).1, (g4 _ _ k2).2]; exact hother c' a' k1

/-- In a state with the invariant, `J`, an activation that returns has the invariant again. -/
theorem activate_J (L : Layout C V) (reg : E → Option (ExtDef C A V)) (hr : TeardownsOk reg) (hn : NodupKeys reg) (e : E)
    (s : S C A V E) (hs : J reg s) (hok : (activate L reg e s).1 = .ok ()) : J reg (activate L reg e s).2 := by
  cases hx : reg e with
  | none => rw [(unknown_extension L reg e hx s).1] at hok; cases hok
  | some x =>
    by_cases he : e ∈ s.active
    · rw [activate_active L reg e x hx s he]; exact hs
    · rcases activate_run L reg hr e x hx s hs.tidy he with ⟨t, h0, h1, h2, h3⟩ | ⟨err, u, t, -, -, -, -, h1, h2, h3⟩
      · rw [h1]
        obtain ⟨_, s1, g1, g2⟩ := M.bind_eq_ok h0
        obtain ⟨c1, c2, c3, c4, c5⟩ := callHook_run x.setup (.setup e) .setup { s with active := s.active ++ [e] }
        rw [g1] at c1 c2 c3 c4
        simp only at c1 c2 c3 c4
        have htag : ∀ c a, s.tag c a ≠ none → s.attr c a ≠ none := by
          intro c a h
          obtain ⟨e', he'⟩ := Option.ne_none_iff_exists'.1 h
          obtain ⟨k1, x', k2, v, k3⟩ := hs.only c a e' he'
          rw [hs.on e' k1 x' k2 c a v k3]; simp
        rcases actAll_cases L e x.entries s1 (by rw [c1, c3]; exact htag) (hn e x hx) with
          ⟨-, w, hw⟩ | ⟨k1, w, hw, k2, k3⟩
        · rw [hw] at g2; cases g2
        · rw [hw] at g2; cases g2
          rw [c1, c3] at k3
          rw [c3] at k1
          have hdis : ∀ f ∈ s.active, ∀ y, reg f = some y → ∀ c a, Declares y.entries c a → ¬ Declares x.entries c a := by
            intro f hf y hy c a hd hd'
            have := hs.mark f hf y hy c a hd
            rw [k1 c a hd'] at this
            cases this
          refine ⟨h2, ?_, ?_, ?_, ?_⟩
          · rw [h3]; intro f hf
            rcases List.mem_append.1 hf with hf | hf
            · exact hs.known f hf
            · rw [List.mem_singleton.1 hf, hx]; simp
          · rw [h3]; intro f hf
            rcases List.mem_append.1 hf with hf | hf
            · intro y hy c a v hm
              show t.attr c a = some v
              rw [(k3 c a (hdis f hf y hy c a ⟨v, hm⟩)).1]
              exact hs.on f hf y hy c a v hm
            · rw [List.mem_singleton.1 hf]
              intro y hy c a v hm
              rw [hx] at hy; cases hy
              exact (k2 c a v hm).1
          · rw [h3]; intro f hf
            rcases List.mem_append.1 hf with hf | hf
            · intro y hy c a hm
              show t.tag c a = some f
              rw [(k3 c a (hdis f hf y hy c a hm)).2]
              exact hs.mark f hf y hy c a hm
            · rw [List.mem_singleton.1 hf]
              intro y hy c a ⟨v, hm⟩
              rw [hx] at hy; cases hy
              exact (k2 c a v hm).2
          · intro c a f hf
            have hf : t.tag c a = some f := hf
            by_cases hd : Declares x.entries c a
            · obtain ⟨v, hv⟩ := hd
              rw [(k2 c a v hv).2] at hf
              cases hf
              exact ⟨by rw [h3]; simp, x, hx, v, hv⟩
            · rw [(k3 c a hd).2] at hf
              obtain ⟨l1, l2⟩ := hs.only c a f hf
              exact ⟨by rw [h3]; simp [l1], l2⟩
      · rw [h1] at hok; cases hok

theorem deactivate_J (L : Layout C V) (reg : E → Option (ExtDef C A V)) (hr : TeardownsOk reg) (e : E)
    (s : S C A V E) (hs : J reg s) : J reg (deactivate L reg e s).2 := by
  cases hx : reg e with
  | none => rw [(unknown_extension L reg e hx s).2]; exact hs
  | some x =>
    by_cases he : e ∈ s.active
    · obtain ⟨t, u, -, h1, h2, h3, h4, h5, h6, h7, h8⟩ := deactivate_run L reg hr e x hx s hs.tidy he
      rw [h1]
      have hmem : ∀ f, f ∈ t.active ↔ f ∈ s.active ∧ f ≠ e := by intro f; rw [h6]; simp
      have hdis : ∀ f ∈ t.active, ∀ y, reg f = some y → ∀ c a, Declares y.entries c a → ¬ Declares x.entries c a := by
        intro f hf y hy c a hd hd'
        have h1 := hs.mark f ((hmem f).1 hf).1 y hy c a hd
        rw [hs.mark e he x hx c a hd'] at h1
        cases h1
        exact ((hmem _).1 hf).2 rfl
      refine ⟨h2, fun f hf => hs.known f ((hmem f).1 hf).1, ?_, ?_, ?_⟩
      · intro f hf y hy c a v hm
        show t.attr c a = some v
        rw [(h8 c a (hdis f hf y hy c a ⟨v, hm⟩)).1]
        exact hs.on f ((hmem f).1 hf).1 y hy c a v hm
      · intro f hf y hy c a hm
        show t.tag c a = some f
        rw [(h8 c a (hdis f hf y hy c a hm)).2.2]
        exact hs.mark f ((hmem f).1 hf).1 y hy c a hm
      · intro c a f hf
        have hf : t.tag c a = some f := hf
        by_cases hd : Declares x.entries c a
        · rw [(h7 c a hd).1] at hf; cases hf
        · rw [(h8 c a hd).2.2] at hf
          obtain ⟨l1, l2⟩ := hs.only c a f hf
          refine ⟨(hmem f).2 ⟨l1, ?_⟩, l2⟩
          rintro rfl
          obtain ⟨y, hy, hdy⟩ := l2
          rw [hx] at hy; cases hy
          exact hd hdy
    · rw [deactivate_inactive L reg e x hx s he]; exact hs

theorem deactivateList_J (L : Layout C V) (reg : E → Option (ExtDef C A V)) (hr : TeardownsOk reg) (es : List E) :
    M.Keeps (J reg) (deactivateList L reg es : X C A V E Unit) := by
  induction es with
  | nil => exact .ret _
  | cons e r ih => exact .bind (fun s hs => deactivate_J L reg hr e s hs) fun _ => ih

theorem activateLoop_J (L : Layout C V) (reg : E → Option (ExtDef C A V)) (hr : TeardownsOk reg) (hn : NodupKeys reg)
    (es : List E) (s : S C A V E) (hs : J reg s) (hok : (activateLoop L reg es s).1 = .ok ()) :
    J reg (activateLoop L reg es s).2 := by
  induction es generalizing s with
  | nil => exact hs
  | cons e r ih =>
    unfold activateLoop at hok ⊢
    rw [M.bind_def] at hok ⊢
    have h1 := activate_J L reg hr hn e s hs
    generalize activate L reg e s = R at *
    obtain ⟨res, t⟩ := R
    cases res with
    | ok u => exact ih t (h1 rfl) hok
    | error e => cases hok

theorem runOp_J (L : Layout C V) (reg : E → Option (ExtDef C A V)) (hr : TeardownsOk reg) (hn : NodupKeys reg) (o : Op E)
    (s : S C A V E) (hs : J reg s) (hok : (runOp L reg o s).1 = .ok ()) : J reg (runOp L reg o s).2 := by
  cases o with
  | act e => exact activate_J L reg hr hn e s hs hok
  | deact e => exact deactivate_J L reg hr e s hs
  | deacts es => exact deactivateList_J L reg hr es s hs
  | acts es =>
    have := activateLoop_J L reg hr hn es
    simp only [runOp, activateList, M.tryCatch] at hok ⊢
    have := this s hs
    generalize activateLoop L reg es s = R at *
    obtain ⟨res, t⟩ := R
    cases res with
    | ok u => exact this rfl
    | error err =>
      simp only [M.bind_def, M.get_def] at hok
      generalize deactivateList L reg t.active t = Q at *
      obtain ⟨q, w⟩ := Q
      cases q <;> cases hok

/-- C36, second half, as far as it is true: along any history of calls none of which raises, every active extension is in
force, whichever classes the extensions declare attributes for. Two active extensions never declare the same
attribute of the same class. What is missing: histories with calls that raise, for which it is false
(`collision_breaks_other`). -/
theorem in_force_partial (L : Layout C V) (reg : E → Option (ExtDef C A V)) (hr : TeardownsOk reg) (hn : NodupKeys reg)
    (ops : List (Op E)) (s : S C A V E) (hs : s.active = []) (ht : ∀ c a, s.tag c a = none) (ho : ∀ c a, s.orig c a = none)
    (hok : ∀ o ∈ (runOps L reg ops s).1, o.2 = true) :
    (∀ e ∈ (runOps L reg ops s).2.active, InForce reg e (runOps L reg ops s).2) ∧
    (∀ e ∈ (runOps L reg ops s).2.active, ∀ f ∈ (runOps L reg ops s).2.active, ∀ x y, reg e = some x → reg f = some y →
      ∀ c a, Declares x.entries c a → Declares y.entries c a → e = f) := by
  have hJ : J reg s := ⟨fun c a h => absurd (ho c a) h, by rw [hs]; simp, by rw [hs]; simp, by rw [hs]; simp,
    fun c a e h => by rw [ht] at h; cases h⟩
  have key : J reg (runOps L reg ops s).2 := by
    clear hs ht ho
    induction ops generalizing s with
    | nil => exact hJ
    | cons o r ih =>
      have h1 := runOp_J L reg hr hn o s hJ
      simp only [runOps] at hok ⊢
      generalize runOp L reg o s = R at *
      obtain ⟨res, t⟩ := R
      have : res = .ok () := by
        have := hok (o, res.isOk) (by simp)
        cases res with
        | ok u => rfl
        | error e => cases this
      exact ih t (fun o ho => hok o (by simp [ho])) (h1 this)
  refine ⟨key.on, ?_⟩
  intro e he f hf x y hx hy c a h1 h2
  have := key.mark e he x hx c a h1
  rw [key.mark f hf y hy c a h2] at this
  exact (Option.some.inj this).symm

/-! ## C35 -/

/-- C35, as far as it is true: for an extension that fits (`Fits`), whatever other extensions are active,
`activate_extension` and `deactivate_extension` succeed; in between the extension is in force, and in the end all class
dictionaries and the active extensions are exactly as before. What is missing: extensions that do not fit, for which it
is false (`roundtrip_loses_own_method` and the theorems after it). -/
theorem roundtrip_partial (L : Layout C V) (hL : Laws L) (reg : E → Option (ExtDef C A V)) (e : E) (x : ExtDef C A V)
    (hx : reg e = some x) (s : S C A V E) (hf : Fits L s x.entries) (he : e ∉ s.active)
    (hset : x.setup ≠ some true) (htear : x.teardown ≠ some true) :
    ∃ t t', activate L reg e s = (.ok (), t) ∧ InForce reg e t ∧ deactivate L reg e t = (.ok (), t') ∧
      t'.attr = s.attr ∧ t'.orig = s.orig ∧ t'.tag = s.tag ∧ t'.active = s.active := by
  obtain ⟨c1, c2, c3, c4, c5⟩ := callHook_run x.setup (.setup e) .setup { s with active := s.active ++ [e] }
  have hok := c5.2 hset
  generalize hR : callHook x.setup (.setup e) .setup { s with active := s.active ++ [e] } = R at *
  obtain ⟨r, s1⟩ := R
  simp only at hok c1 c2 c3 c4
  subst hok
  have hsame : ∀ c a, SameKey s s1 c a := fun c a => ⟨by rw [c1], by rw [c2], by rw [c3]⟩
  obtain ⟨t, h1, h2, h3, h4, h5⟩ := actAll_ext L e s x.entries hf [] x.entries rfl s1 (by simp) (fun c a _ _ => hsame c a)
    (fun c a _ y _ _ => ⟨(hsame y a).1, (hsame y a).2.2⟩)
  obtain ⟨u, g1, g2, g3, g4, g5⟩ := deactAll_restores L hL e s x.entries hf [] x.entries rfl t (fun c a ⟨v, h⟩ => by simp at h)
    h2 (fun c a _ y _ hy => by rw [(h5 y a hy).1, (hsame y a).1])
  obtain ⟨d1, d2, d3, d4, d5⟩ := callHook_run x.teardown (.teardown e) .teardown u
  have hok := d5.2 htear
  generalize hQ : callHook x.teardown (.teardown e) .teardown u = Q at *
  obtain ⟨q, w⟩ := Q
  simp only at hok d1 d2 d3 d4
  subst hok
  have hu : ∀ c a, SameKey s u c a := by
    intro c a
    by_cases hd : Declares x.entries c a
    · exact g2 c a hd
    · obtain ⟨k1, k2, k3⟩ := g5 c a hd
      obtain ⟨l1, l2, l3⟩ := h5 c a hd
      obtain ⟨m1, m2, m3⟩ := hsame c a
      exact ⟨k1.trans (l1.trans m1), k2.trans (l2.trans m2), k3.trans (l3.trans m3)⟩
  have hact : t.active = s.active ++ [e] := h3.trans c4
  refine ⟨t, { w with active := w.active.filter (· ≠ e) }, ?_, ?_, ?_, ?_, ?_, ?_, ?_⟩
  · unfold activate
    rw [hx]
    simp only [if_neg he]
    unfold M.tryCatch
    rw [M.bind_ok hR, h1]
  · intro y hy c a v hm
    rw [hx] at hy; cases hy
    exact (h2 c a v hm).1
  · unfold deactivate
    rw [hx]
    simp only [if_pos (show e ∈ t.active by rw [hact]; simp)]
    rw [M.bind_ok g1, M.bind_ok hQ]
    rfl
  · show w.attr = _
    rw [d1]; funext c a; exact (hu c a).1
  · show w.orig = _
    rw [d2]; funext c a; exact (hu c a).2.1
  · show w.tag = _
    rw [d3]; funext c a; exact (hu c a).2.2
  · show w.active.filter _ = _
    rw [d4, g3, hact, List.filter_append, List.filter_eq_self.2 (by intro y hy; simp; rintro rfl; exact he hy)]
    simp

/-! ### Arbitrary histories of several extensions -/

/-- Different extensions do not extend the same attribute of classes of which one is the other or an ancestor of the
other. -/
def Apart (L : Layout C V) (reg : E → Option (ExtDef C A V)) : Prop :=
  ∀ e f x y, reg e = some x → reg f = some y → e ≠ f → ∀ c d a, Declares x.entries c a → Declares y.entries d a →
    c ≠ d ∧ d ∉ L.anc c

/-- The classes look as originally, except for the attributes of active extensions. -/
structure Overlay (L : Layout C V) (reg : E → Option (ExtDef C A V)) (b s : S C A V E) : Prop where
  regd : ∀ e ∈ s.active, reg e ≠ none
  on : ∀ e ∈ s.active, ∀ x, reg e = some x → ∀ c a v, (c, a, v) ∈ x.entries → Extended L b e c a v s
  off : ∀ c a, (∀ e ∈ s.active, ∀ x, reg e = some x → ¬ Declares x.entries c a) → SameKey b s c a

/-- What the histories theorem needs of the registered extensions. -/
structure Harmless (L : Layout C V) (reg : E → Option (ExtDef C A V)) (b : S C A V E) : Prop where
  laws : Laws L
  apart : Apart L reg
  fits : ∀ e x, reg e = some x → Fits L b x.entries
  setup : ∀ e x, reg e = some x → x.setup ≠ some true
  teardown : ∀ e x, reg e = some x → x.teardown ≠ some true

theorem activate_overlay (L : Layout C V) (reg : E → Option (ExtDef C A V)) (b : S C A V E) (hh : Harmless L reg b) (e : E)
    (s : S C A V E) (hs : Overlay L reg b s) : Overlay L reg b (activate L reg e s).2 ∧
      ((activate L reg e s).1 = .ok () ↔ reg e ≠ none) := by
  cases hx : reg e with
  | none => rw [(unknown_extension L reg e hx s).1]; exact ⟨hs, by simp⟩
  | some x =>
    by_cases he : e ∈ s.active
    · rw [activate_active L reg e x hx s he]; exact ⟨hs, by simp⟩
    · have hf := hh.fits e x hx
      obtain ⟨c1, c2, c3, c4, c5⟩ := callHook_run x.setup (.setup e) .setup { s with active := s.active ++ [e] }
      have hok := c5.2 (hh.setup e x hx)
      generalize hR : callHook x.setup (.setup e) .setup { s with active := s.active ++ [e] } = R at *
      obtain ⟨r, s1⟩ := R
      simp only at hok c1 c2 c3 c4
      subst hok
      have hne : ∀ f ∈ s.active, f ≠ e := by rintro f hf rfl; exact he hf
      have hb : ∀ c a, Declares x.entries c a → ∀ y, y = c ∨ y ∈ L.anc c → SameKey b s y a ∨ Declares x.entries y a := by
        intro c a hd y hy
        by_cases hdy : Declares x.entries y a
        · exact .inr hdy
        · left
          refine hs.off y a fun f hf z hz hdf => ?_
          obtain ⟨k1, k2⟩ := hh.apart e f x z hx hz (hne f hf).symm c y a hd hdf
          rcases hy with rfl | hy
          exacts [k1 rfl, k2 hy]
      have hown : ∀ c a, Declares x.entries c a → SameKey b s c a := by
        intro c a hd
        refine hs.off c a fun f hf z hz hdf => ?_
        exact (hh.apart e f x z hx hz (hne f hf).symm c c a hd hdf).1 rfl
      have hsame : ∀ c a, SameKey s s1 c a := fun c a => ⟨by rw [c1], by rw [c2], by rw [c3]⟩
      have htr : ∀ {c a}, SameKey b s c a → SameKey b s1 c a := fun {c a} h =>
        ⟨(hsame c a).1.trans h.1, (hsame c a).2.1.trans h.2.1, (hsame c a).2.2.trans h.2.2⟩
      obtain ⟨t, h1, h2, h3, h4, h5⟩ := actAll_ext L e b x.entries hf [] x.entries rfl s1 (by simp)
        (fun c a hd _ => htr (hown c a hd))
        (fun c a hd y hy _ => by
          have : SameKey b s1 y a := by
            rcases hb c a hd y (.inr hy) with h | h
            · exact htr h
            · exact htr (hown y a h)
          exact ⟨this.1, this.2.2⟩)
      have hact : activate L reg e s = (.ok (), t) := by
        unfold activate
        rw [hx]
        simp only [if_neg he]
        unfold M.tryCatch
        rw [M.bind_ok hR, h1]
      rw [hact]
      refine ⟨⟨?_, ?_, ?_⟩, by simp⟩
      · intro f hf
        have hf : f ∈ t.active := hf
        rw [h3, c4] at hf
        rcases List.mem_append.1 hf with hf | hf
        · exact hs.regd f hf
        · rw [List.mem_singleton.1 hf, hx]; simp
      · intro f hf y hy c a v hm
        have hf : f ∈ t.active := hf
        rw [h3, c4] at hf
        rcases List.mem_append.1 hf with hf | hf
        · have hnd : ¬ Declares x.entries c a := fun hd =>
            (hh.apart e f x y hx hy (hne f hf).symm c c a hd ⟨v, hm⟩).1 rfl
          obtain ⟨k1, k2, k3⟩ := h5 c a hnd
          obtain ⟨l1, l2, l3⟩ := hsame c a
          obtain ⟨e1, e2, e3, e4⟩ := hs.on f hf y hy c a v hm
          refine ⟨(k1.trans l1).trans e1, (k3.trans l3).trans e2, fun w hw => (k2.trans l2).trans (e3 w hw), fun hn => ?_⟩
          show t.orig c a = none ∨ _
          rw [k2, l2]; exact e4 hn
        · rw [List.mem_singleton.1 hf] at hy ⊢
          rw [hx] at hy; cases hy
          exact h2 c a v hm
      · intro c a hnd
        have hnx : ¬ Declares x.entries c a := hnd e (by show e ∈ t.active; rw [h3, c4]; simp) x hx
        obtain ⟨k1, k2, k3⟩ := h5 c a hnx
        obtain ⟨l1, l2, l3⟩ := htr (hs.off c a fun f hf z hz => hnd f (by show f ∈ t.active; rw [h3, c4]; simp [hf]) z hz)
        exact ⟨k1.trans l1, k2.trans l2, k3.trans l3⟩

theorem deactivate_overlay (L : Layout C V) (reg : E → Option (ExtDef C A V)) (b : S C A V E) (hh : Harmless L reg b) (e : E)
    (s : S C A V E) (hs : Overlay L reg b s) : Overlay L reg b (deactivate L reg e s).2 ∧
      ((deactivate L reg e s).1 = .ok () ↔ reg e ≠ none) := by
  cases hx : reg e with
  | none => rw [(unknown_extension L reg e hx s).2]; exact ⟨hs, by simp⟩
  | some x =>
    by_cases he : e ∈ s.active
    · have hf := hh.fits e x hx
      have hoff : ∀ c a, Declares x.entries c a → ∀ y ∈ L.anc c, ¬ Declares x.entries y a → s.attr y a = b.attr y a := by
        intro c a hd y hy hny
        refine (hs.off y a fun f hf z hz hdf => ?_).1
        by_cases hfe : f = e
        · subst hfe; rw [hx] at hz; cases hz; exact hny hdf
        · exact (hh.apart e f x z hx hz (fun h => hfe h.symm) c y a hd hdf).2 hy
      obtain ⟨u, g1, g2, g3, g4, g5⟩ := deactAll_restores L hh.laws e b x.entries hf [] x.entries rfl s
        (fun c a ⟨v, h⟩ => by simp at h) (fun c a v hm => hs.on e he x hx c a v hm) hoff
      obtain ⟨d1, d2, d3, d4, d5⟩ := callHook_run x.teardown (.teardown e) .teardown u
      have hok := d5.2 (hh.teardown e x hx)
      generalize hQ : callHook x.teardown (.teardown e) .teardown u = Q at *
      obtain ⟨q, w⟩ := Q
      simp only at hok d1 d2 d3 d4
      subst hok
      have hrun : deactivate L reg e s = (.ok (), { w with active := w.active.filter (· ≠ e) }) := by
        unfold deactivate
        rw [hx]
        simp only [if_pos he]
        rw [M.bind_ok g1, M.bind_ok hQ]
        rfl
      rw [hrun]
      have hmem : ∀ f, f ∈ w.active.filter (· ≠ e) ↔ f ∈ s.active ∧ f ≠ e := by intro f; rw [d4, g3]; simp
      have hnd : ∀ c a, ¬ Declares x.entries c a →
          SameKey s { w with active := w.active.filter (· ≠ e) } c a := by
        intro c a hd
        obtain ⟨k1, k2, k3⟩ := g5 c a hd
        exact ⟨by show w.attr c a = _; rw [d1, k1], by show w.orig c a = _; rw [d2, k2], by show w.tag c a = _; rw [d3, k3]⟩
      refine ⟨⟨fun f hf => hs.regd f ((hmem f).1 hf).1, ?_, ?_⟩, by simp⟩
      · intro f hf y hy c a v hm
        obtain ⟨hf1, hf2⟩ := (hmem f).1 hf
        obtain ⟨k1, k2, k3⟩ := hnd c a fun hd => (hh.apart e f x y hx hy (fun h => hf2 h.symm) c c a hd ⟨v, hm⟩).1 rfl
        obtain ⟨e1, e2, e3, e4⟩ := hs.on f hf1 y hy c a v hm
        refine ⟨k1.trans e1, k3.trans e2, fun w hw => k2.trans (e3 w hw), fun hn => ?_⟩
        rw [k2]; exact e4 hn
      · intro c a hna
        by_cases hd : Declares x.entries c a
        · obtain ⟨k1, k2, k3⟩ := g2 c a hd
          exact ⟨by show w.attr c a = _; rw [d1, k1], by show w.orig c a = _; rw [d2, k2], by show w.tag c a = _; rw [d3, k3]⟩
        · obtain ⟨k1, k2, k3⟩ := hnd c a hd
          obtain ⟨l1, l2, l3⟩ := hs.off c a fun f hf z hz => by
            by_cases hfe : f = e
            · subst hfe; rw [hx] at hz; cases hz; exact hd
            · exact hna f ((hmem f).2 ⟨hf, hfe⟩) z hz
          exact ⟨k1.trans l1, k2.trans l2, k3.trans l3⟩
    · rw [deactivate_inactive L reg e x hx s he]; exact ⟨hs, by simp⟩

theorem runOp_overlay (L : Layout C V) (reg : E → Option (ExtDef C A V)) (b : S C A V E) (hh : Harmless L reg b) (o : Op E) :
    M.Keeps (Overlay L reg b) (runOp L reg o : X C A V E Unit) := by
  have hd : ∀ es : List E, M.Keeps (Overlay L reg b) (deactivateList L reg es : X C A V E Unit) := by
    intro es
    induction es with
    | nil => exact .ret _
    | cons e r ih => exact .bind (fun s hs => (deactivate_overlay L reg b hh e s hs).1) fun _ => ih
  have ha : ∀ es : List E, M.Keeps (Overlay L reg b) (activateLoop L reg es : X C A V E Unit) := by
    intro es
    induction es with
    | nil => exact .ret _
    | cons e r ih => exact .bind (fun s hs => (activate_overlay L reg b hh e s hs).1) fun _ => ih
  cases o with
  | act e => exact fun s hs => (activate_overlay L reg b hh e s hs).1
  | deact e => exact fun s hs => (deactivate_overlay L reg b hh e s hs).1
  | deacts es => exact hd es
  | acts es =>
    intro s hs
    simp only [runOp, activateList, M.tryCatch]
    have h1 := ha es s hs
    generalize activateLoop L reg es s = R at *
    obtain ⟨res, t⟩ := R
    cases res with
    | ok u => exact h1
    | error err => exact (M.Keeps.get.bind fun s => (hd s.active).bind fun _ => .raise err) t h1

/-- C35 for arbitrary histories: if the registered extensions fit and do not get in each other's way, then after any
history of calls (in any order, not only nested, and also if calls with unknown names raise), every attribute of every
class is the original one, except those declared by the extensions active at that time, which have the value of the
extension. In particular, once no extension is active all classes are as in the beginning. -/
theorem history_overlay_partial (L : Layout C V) (reg : E → Option (ExtDef C A V)) (b : S C A V E) (hh : Harmless L reg b)
    (hb : b.active = []) (ops : List (Op E)) :
    let s := (runOps L reg ops b).2
    (∀ e ∈ s.active, InForce reg e s) ∧
    (∀ c a, (∀ e ∈ s.active, ∀ x, reg e = some x → ¬ Declares x.entries c a) →
      s.attr c a = b.attr c a ∧ s.orig c a = b.orig c a ∧ s.tag c a = b.tag c a) ∧
    (s.active = [] → s.attr = b.attr ∧ s.orig = b.orig ∧ s.tag = b.tag) := by
  have key : ∀ s, Overlay L reg b s → Overlay L reg b (runOps L reg ops s).2 := by
    induction ops with
    | nil => exact fun _ h => h
    | cons o r ih =>
      intro s hs
      simp only [runOps]
      exact ih _ (runOp_overlay L reg b hh o s hs)
  have h := key b ⟨by rw [hb]; simp, by rw [hb]; simp, fun c a _ => ⟨rfl, rfl, rfl⟩⟩
  refine ⟨fun e he x hx c a v hm => (h.on e he x hx c a v hm).1, fun c a hn => h.off c a hn, fun he => ?_⟩
  have hall : ∀ c a, SameKey b (runOps L reg ops b).2 c a := fun c a => h.off c a (by rw [he]; simp)
  exact ⟨by funext c a; exact (hall c a).1, by funext c a; exact (hall c a).2.1, by funext c a; exact (hall c a).2.2⟩

end Mdp.Ext
