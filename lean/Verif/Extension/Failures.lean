import Verif.Extension.RoundTrip

/-!
# Extensions: failing activations (C37), scopes (C38), counterexamples
-/

namespace Mdp.Ext

open Py

variable {C A V E : Type} [DecidableEq C] [DecidableEq A] [DecidableEq V] [DecidableEq E]

/-! ## C37 -/

/-- A marker is only there together with the attribute. -/
def Marked (s : S C A V E) : Prop := ∀ c a, s.tag c a ≠ none → s.attr c a ≠ none

/-- Activation does not touch what is marked already. -/
theorem actOne_marked (L : Layout C V) (e : E) (c : C) (a : A) (v : V) (s : S C A V E) (hs : Marked s) :
    Marked (actOne L e c a v s).2 ∧
    (∀ c' a', s.tag c' a' ≠ none ∨ ¬ (c' = c ∧ a' = a) → SameKey s (actOne L e c a v s).2 c' a') := by
  have hmk : ∀ o, Marked (⟨upd s.attr c a (some v), o, upd s.tag c a (some e), s.active, s.log⟩ : S C A V E) := by
    intro o c' a' h
    show upd s.attr c a (some v) c' a' ≠ none
    by_cases hk : c' = c ∧ a' = a
    · obtain ⟨rfl, rfl⟩ := hk; simp
    · rw [upd_other _ _ _ _ _ _ hk]
      have h : upd s.tag c a (some e) c' a' ≠ none := h
      rw [upd_other _ _ _ _ _ _ hk] at h
      exact hs c' a' h
  unfold actOne
  cases hg : getattr L s.attr c a with
  | some o =>
    by_cases ht : (s.tag c a).isSome
    · simp only [if_pos ht]; exact ⟨hs, fun _ _ _ => ⟨rfl, rfl, rfl⟩⟩
    · simp only [if_neg ht]
      refine ⟨hmk _, fun c' a' h => ?_⟩
      have hk : ¬ (c' = c ∧ a' = a) := by
        rcases h with h | h
        · rintro ⟨rfl, rfl⟩
          exact ht (Option.isSome_iff_ne_none.2 h)
        · exact h
      refine ⟨upd_other _ _ _ _ _ _ hk, ?_, upd_other _ _ _ _ _ _ hk⟩
      show (if _ then upd s.orig c a _ else s.orig) c' a' = _
      split
      · rw [upd_other _ _ _ _ _ _ hk]
      · rfl
  | none =>
    refine ⟨hmk _, fun c' a' h => ?_⟩
    have hk : ¬ (c' = c ∧ a' = a) := by
      rcases h with h | h
      · rintro ⟨rfl, rfl⟩
        unfold getattr at hg
        exact find_isSome (L := L) (hs _ _ h) (by simpa using hg)
      · exact h
    exact ⟨upd_other _ _ _ _ _ _ hk, rfl, upd_other _ _ _ _ _ _ hk⟩

theorem actAll_marked (L : Layout C V) (e : E) (es : List (C × A × V)) (s : S C A V E) (hs : Marked s) :
    ∀ c a, s.tag c a ≠ none ∨ ¬ Declares es c a → SameKey s (actAll L e es s).2 c a := by
  induction es generalizing s with
  | nil => exact fun _ _ _ => ⟨rfl, rfl, rfl⟩
  | cons x r ih =>
    obtain ⟨c, a, v⟩ := x
    obtain ⟨h1, h2⟩ := actOne_marked L e c a v s hs
    intro c' a' h
    have hk := h2 c' a' (h.imp_right fun h => by rintro ⟨rfl, rfl⟩; exact h ⟨v, by simp⟩)
    show SameKey s ((actOne L e c a v >>= fun _ => actAll L e r) s).2 c' a'
    rw [M.bind_def]
    generalize actOne L e c a v s = R at *
    obtain ⟨res, t⟩ := R
    cases res with
    | error err => exact hk
    | ok u =>
      obtain ⟨k1, k2, k3⟩ := hk
      obtain ⟨l1, l2, l3⟩ := ih t h1 c' a' (by
        rcases h with h | h
        · left; rw [show t.tag c' a' = s.tag c' a' from k3]; exact h
        · right; exact fun ⟨w, hw⟩ => h ⟨w, by simp [hw]⟩)
      exact ⟨l1.trans k1, l2.trans k2, l3.trans k3⟩

/-- What deactivation leaves behind: nothing, or the stored original. -/
theorem deactAll_key (L : Layout C V) (es : List (C × A × V)) (s : S C A V E) (hs : Tidy s) :
    ∀ c a, Declares es c a → (deactAll L es s).2.attr c a = none ∨
      ∃ w, s.orig c a = some w ∧ (deactAll L es s).2.attr c a = some (L.bind c w) := by
  induction es generalizing s with
  | nil => rintro c a ⟨v, h⟩; simp at h
  | cons x r ih =>
    obtain ⟨c, a, v⟩ := x
    obtain ⟨t, h1, h2, h3, h4, h5, h6, h7⟩ := deactOne_ok L c a s hs
    have hrun : deactAll L ((c, a, v) :: r) s = deactAll L r t := by
      show (deactOne L c a >>= fun _ => deactAll L r) s = _
      rw [M.bind_ok h1]
    have hkey : t.attr c a = none ∨ ∃ w, s.orig c a = some w ∧ t.attr c a = some (L.bind c w) := by
      unfold deactOne at h1
      cases ho : s.orig c a with
      | none => rw [ho] at h1; cases h1; left; exact upd_same _ _ _ _
      | some w =>
        rw [ho] at h1
        simp only at h1
        split at h1
        · cases h1
        · cases h1
          simp only
          split
          · right; exact ⟨w, rfl, upd_same _ _ _ _⟩
          · left; exact upd_same _ _ _ _
    rw [hrun]
    intro c' a' hd
    by_cases hr : Declares r c' a'
    · rcases ih t h2 c' a' hr with g | ⟨w, g1, g2⟩
      · exact .inl g
      · right
        refine ⟨w, ?_, g2⟩
        by_cases hk : c' = c ∧ a' = a
        · obtain ⟨rfl, rfl⟩ := hk; rw [h6] at g1; cases g1
        · rw [← (h7 c' a' hk).2.1]; exact g1
    · obtain ⟨u, -, -, -, -, -, g⟩ := deactAll_ok L r t h2
      have hk : c' = c ∧ a' = a := by
        obtain ⟨w, hw⟩ := hd
        rcases List.mem_cons.1 hw with hw | hw
        · cases hw; exact ⟨rfl, rfl⟩
        · exact absurd ⟨w, hw⟩ hr
      obtain ⟨rfl, rfl⟩ := hk
      obtain ⟨u, g0, -, -, -, -, g⟩ := deactAll_ok L r t h2
      rw [g0]
      rw [show u.attr c' a' = t.attr c' a' from (g _ _ hr).1]
      exact hkey

/-- C37, as far as it is true: if `activate_extension(e)` raises, for whatever reason, then the active extensions are
exactly those before, and so are all attributes of all classes except those that `e` declares. What is missing: the
attributes that `e` declares, see `collision_breaks_other` and `failed_activation_no_trace_partial`. -/
theorem failed_activation_local_partial (L : Layout C V) (reg : E → Option (ExtDef C A V)) (hr : TeardownsOk reg) (e : E)
    (s : S C A V E) (hs : Tidy s) (hm : Marked s) (hfail : (activate L reg e s).1 ≠ .ok ()) :
    (activate L reg e s).2.active = s.active ∧
    ∀ c a, (∀ x, reg e = some x → ¬ Declares x.entries c a) → SameKey s (activate L reg e s).2 c a := by
  refine ⟨(activate_active_set L reg hr e s hs).2.2 hfail, ?_⟩
  cases hx : reg e with
  | none => rw [(unknown_extension L reg e hx s).1]; exact fun _ _ _ => ⟨rfl, rfl, rfl⟩
  | some x =>
    by_cases he : e ∈ s.active
    · rw [activate_active L reg e x hx s he]; exact fun _ _ _ => ⟨rfl, rfl, rfl⟩
    · rcases activate_run L reg hr e x hx s hs he with ⟨t, -, h1, -, -⟩ | ⟨err, u, t, h0, h1, h2, h3, h4, h5, h6⟩
      · rw [h1] at hfail; exact absurd rfl hfail
      · intro c a hnd
        have hnd := hnd x rfl
        rw [h4]
        obtain ⟨t', -, -, k1, -, -, -, -, -, -, k2⟩ := deactivate_run L reg hr e x hx u h1 (by rw [h2]; simp)
        rw [h3] at k1; cases k1
        obtain ⟨l1, l2, l3⟩ := k2 c a hnd
        have hu : SameKey s u c a := by
          obtain ⟨c1, c2, c3, c4, c5⟩ := callHook_run x.setup (.setup e) .setup { s with active := s.active ++ [e] }
          unfold body at h0
          rw [M.bind_def] at h0
          generalize hQ : callHook x.setup (.setup e) .setup { s with active := s.active ++ [e] } = Q at *
          obtain ⟨q, s1⟩ := Q
          simp only at c1 c2 c3 c4
          have hsame : SameKey s s1 c a := ⟨by rw [c1], by rw [c2], by rw [c3]⟩
          cases q with
          | error er => cases h0; exact hsame
          | ok _ =>
            have := actAll_marked L e x.entries s1 (by intro c a h; rw [c1]; rw [c3] at h; exact hm c a h) c a (.inr hnd)
            simp only at h0
            rw [h0] at this
            exact ⟨this.1.trans hsame.1, this.2.1.trans hsame.2.1, this.2.2.trans hsame.2.2⟩
        exact ⟨l1.trans hu.1, l2.trans hu.2.1, l3.trans hu.2.2⟩

/-- C37 is false, and not only for odd cases: whenever `activate_extension(e)` raises because of a collision, some *other*
extension `f` loses one of its attributes. It remains in the set of active extensions, but its attribute is gone or is
what it was before `f` was activated, and the marker and the stored original are gone too. -/
theorem collision_breaks_other (L : Layout C V) (reg : E → Option (ExtDef C A V)) (hr : TeardownsOk reg) (hn : NodupKeys reg)
    (e : E) (s : S C A V E) (hs : J reg s) (t : S C A V E) (hcol : activate L reg e s = (.error .collision, t)) :
    ∃ f ∈ t.active, f ≠ e ∧ ∃ y c a v, reg f = some y ∧ (c, a, v) ∈ y.entries ∧ s.attr c a = some v ∧
      (t.attr c a = none ∨ ∃ w, s.orig c a = some w ∧ t.attr c a = some (L.bind c w)) ∧
      t.tag c a = none ∧ t.orig c a = none := by
  cases hx : reg e with
  | none => rw [(unknown_extension L reg e hx s).1] at hcol; cases hcol
  | some x =>
    by_cases he : e ∈ s.active
    · rw [activate_active L reg e x hx s he] at hcol; cases hcol
    · have hmk : Marked s := by
        intro c a h
        obtain ⟨e', he'⟩ := Option.ne_none_iff_exists'.1 h
        obtain ⟨k1, x', k2, v, k3⟩ := hs.only c a e' he'
        rw [hs.on e' k1 x' k2 c a v k3]; simp
      rcases activate_run L reg hr e x hx s hs.tidy he with ⟨t', -, h1, -, -⟩ | ⟨err, u, t', h0, h1, h2, h3, h4, h5, h6⟩
      · rw [hcol] at h1; cases h1
      · rw [hcol] at h4; cases h4
        obtain ⟨c1, c2, c3, c4, c5⟩ := callHook_run x.setup (.setup e) .setup { s with active := s.active ++ [e] }
        unfold body at h0
        rw [M.bind_def] at h0
        have hq : ∀ er, (callHook x.setup (.setup e) .setup { s with active := s.active ++ [e] }).1 = .error er → er = .setup := by
          intro er
          unfold callHook
          cases x.setup with
          | none => simp
          | some b => cases b <;> simp <;> exact fun h => h.symm
        generalize hQ : callHook x.setup (.setup e) .setup { s with active := s.active ++ [e] } = Q at *
        obtain ⟨q, s1⟩ := Q
        simp only at c1 c2 c3 c4
        cases q with
        | error er => have := hq er rfl; subst this; cases h0
        | ok _ =>
          simp only at h0
          rcases actAll_cases L e x.entries s1 (by rw [c1, c3]; exact hmk) (hn e x hx) with
            ⟨⟨c, a, k1, k2⟩, w, hw⟩ | ⟨-, w, hw, -, -⟩
          · have hmu := actAll_marked L e x.entries s1 (by intro c a h; rw [c1]; rw [c3] at h; exact hmk c a h) c a (.inl k2)
            rw [h0] at hmu
            rw [c3] at k2
            obtain ⟨f, hf⟩ := Option.ne_none_iff_exists'.1 k2
            obtain ⟨l1, y, l2, v, l3⟩ := hs.only c a f hf
            obtain ⟨t', u', m0, m1, -, ma, -, -, -, m2, -⟩ := deactivate_run L reg hr e x hx u h1 (by rw [h2]; simp)
            rw [h3] at m1; cases m1
            refine ⟨f, by rw [h6]; exact l1, by rintro rfl; exact he l1, y, c, a, v, l2, l3, hs.on f l1 y l2 c a v l3, ?_,
              (m2 c a k1).1, (m2 c a k1).2⟩
            have := deactAll_key L x.entries u h1 c a k1
            rw [m0] at this
            rw [ma, ← c2, ← hmu.2.1]
            exact this
          · rw [hw] at h0; cases h0

/-- If the setup function raises, and no class has one of the declared attributes itself, then the activation leaves no
trace. What is missing: attributes that classes define themselves; they are deleted (`setup_failure_deletes_method`). -/
theorem failed_activation_no_trace_partial (L : Layout C V) (reg : E → Option (ExtDef C A V)) (hr : TeardownsOk reg) (e : E)
    (x : ExtDef C A V) (hx : reg e = some x) (s : S C A V E) (hs : Tidy s) (he : e ∉ s.active) (hset : x.setup = some true)
    (hown : ∀ c a, Declares x.entries c a → s.attr c a = none ∧ s.orig c a = none ∧ s.tag c a = none) :
    ∃ t, activate L reg e s = (.error .setup, t) ∧ t.attr = s.attr ∧ t.orig = s.orig ∧ t.tag = s.tag ∧ t.active = s.active := by
  obtain ⟨c1, c2, c3, c4, c5⟩ := callHook_run x.setup (.setup e) .setup { s with active := s.active ++ [e] }
  rcases activate_run L reg hr e x hx s hs he with ⟨t', h0, h1, -, -⟩ | ⟨err, u, t, h0, h1, h2, h3, h4, h5, h6⟩
  · obtain ⟨_, s1, g1, -⟩ := M.bind_eq_ok h0
    rw [g1] at c5
    exact absurd hset (c5.1 rfl)
  · have hu : err = .setup ∧ u.attr = s.attr ∧ u.orig = s.orig ∧ u.tag = s.tag := by
      unfold body at h0
      rw [M.bind_def] at h0
      unfold callHook at h0
      rw [hset] at h0
      simp only [if_true] at h0
      cases h0
      exact ⟨rfl, rfl, rfl, rfl⟩
    obtain ⟨rfl, u1, u2, u3⟩ := hu
    obtain ⟨t', u', m0, m1, -, ma, mo, mt, -, m2, m3⟩ := deactivate_run L reg hr e x hx u h1 (by rw [h2]; simp)
    rw [h3] at m1; cases m1
    refine ⟨t, h4, ?_, ?_, ?_, h6⟩
    · funext c a
      by_cases hd : Declares x.entries c a
      · have := deactAll_key L x.entries u h1 c a hd
        rw [m0] at this
        rw [(hown c a hd).1, ma]
        rcases this with h | ⟨w, h, -⟩
        · exact h
        · rw [u2, (hown c a hd).2.1] at h; cases h
      · rw [(m3 c a hd).1, u1]
    · funext c a
      by_cases hd : Declares x.entries c a
      · rw [(m2 c a hd).2, (hown c a hd).2.1]
      · rw [(m3 c a hd).2.1, u2]
    · funext c a
      by_cases hd : Declares x.entries c a
      · rw [(m2 c a hd).1, (hown c a hd).2.2]
      · rw [(m3 c a hd).2.2, u3]

/-! ## C38 -/

/-- A block of code that deactivates what it activates, and the other way round, whether or not it raises. -/
def Balanced {R : Type} (m : X C A V E R) : Prop :=
  ∀ s : S C A V E, Tidy s → Tidy (m s).2 ∧ ∀ f, f ∈ (m s).2.active ↔ f ∈ s.active

/-- C38 for functions decorated by `with_extension(e)`: whatever happens in the activation or in the function, the active
extensions are afterwards those before. So such calls can be nested in any way. If the activation succeeded (or was
not necessary) the call has the outcome of the function, called with `e` active. -/
theorem with_extension_balanced {R : Type} (L : Layout C V) (reg : E → Option (ExtDef C A V)) (hr : TeardownsOk reg) (e : E)
    (m : X C A V E R) (hm : Balanced m) : Balanced (withExtension L reg e m) ∧
    ∀ s : S C A V E, Tidy s → (activate L reg e s).1 = .ok () →
      e ∈ (activate L reg e s).2.active ∧ (withExtension L reg e m s).1 = (m (activate L reg e s).2).1 := by
  have key : ∀ s : S C A V E, Tidy s → (Tidy (withExtension L reg e m s).2 ∧
      ∀ f, f ∈ (withExtension L reg e m s).2.active ↔ f ∈ s.active) ∧ ((activate L reg e s).1 = .ok () →
      e ∈ (activate L reg e s).2.active ∧ (withExtension L reg e m s).1 = (m (activate L reg e s).2).1) := by
    intro s hs
    unfold withExtension
    by_cases he : e ∈ s.active
    · rw [if_pos he]
      refine ⟨hm s hs, fun hok => ?_⟩
      cases hx : reg e with
      | none => rw [(unknown_extension L reg e hx s).1] at hok; cases hok
      | some x => rw [activate_active L reg e x hx s he]; exact ⟨he, rfl⟩
    · rw [if_neg he]
      unfold finally_
      rw [M.bind_def]
      obtain ⟨a1, a2, a3⟩ := activate_active_set L reg hr e s hs
      have hu := unknown_extension L reg e (s := s)
      generalize activate L reg e s = R at *
      obtain ⟨res, t⟩ := R
      cases res with
      | error err =>
        have a3 : t.active = s.active := a3 (by simp)
        obtain ⟨d1, d2, d3, d4⟩ := deactivate_active_set L reg hr e t a1
        refine ⟨?_, fun h => by cases h⟩
        simp only
        have hset : ∀ f, f ∈ (deactivate L reg e t).2.active ↔ f ∈ s.active := by
          intro f
          by_cases hx : reg e = none
          · rw [d4 hx, a3]
          · rw [d3 hx f, a3]
            exact ⟨fun h => h.1, fun h => ⟨h, by rintro rfl; exact he h⟩⟩
        generalize deactivate L reg e t = D at *
        obtain ⟨d, t2⟩ := D
        cases d <;> exact ⟨d1, hset⟩
      | ok _ =>
        have a2 := a2 rfl
        have hx : reg e ≠ none := by
          intro hx
          have := (hu hx).1
          cases this
        obtain ⟨m1, m2⟩ := hm t a1
        simp only
        generalize m t = N at *
        obtain ⟨r, t2⟩ := N
        obtain ⟨d1, d2, d3, d4⟩ := deactivate_active_set L reg hr e t2 m1
        have hok := d2.2 hx
        have d3 := d3 hx
        simp only
        generalize deactivate L reg e t2 = D at *
        obtain ⟨d, t3⟩ := D
        simp only at hok
        subst hok
        refine ⟨⟨d1, fun f => ?_⟩, fun _ => ⟨(a2 e).2 (.inr rfl), rfl⟩⟩
        have h1 := d3 f
        have h2 := m2 f
        have h3 := a2 f
        simp only at h1 h2 h3 ⊢
        rw [h1, h2, h3]
        constructor
        · rintro ⟨h | h, h'⟩
          · exact h
          · exact absurd h h'
        · exact fun h => ⟨.inl h, by rintro rfl; exact he h⟩
  exact ⟨fun s hs => (key s hs).1, fun s hs => (key s hs).2⟩

/-- C38 for `with extension(names)`, as far as it is true: if the activation succeeds, then after the statement, left
normally or by an exception, exactly the extensions are active that were before; in the body those and `names` are, and
the outcome is that of the body. What is missing: failing activations, in which case *no* extension is active
afterwards, see `activateList_active_set` and `with_statement_failure_deactivates_all`. -/
theorem with_statement_partial {R : Type} (L : Layout C V) (reg : E → Option (ExtDef C A V)) (hr : TeardownsOk reg) (es : List E)
    (m : X C A V E R) (hm : Balanced m) (s : S C A V E) (hs : Tidy s) (hreg : ∀ e ∈ s.active, reg e ≠ none)
    (hok : (activateList L reg es s).1 = .ok ()) :
    (∀ f, f ∈ (activateList L reg es s).2.active ↔ f ∈ s.active ∨ f ∈ es) ∧
    (withExtensions L reg es m s).1 = (m (activateList L reg es s).2).1 ∧
    Tidy (withExtensions L reg es m s).2 ∧
    (∀ f, f ∈ (withExtensions L reg es m s).2.active ↔ f ∈ s.active) := by
  obtain ⟨a1, a2, a3, a4⟩ := activateList_active_set L reg hr es s hs hreg
  have a2 := a2 hok
  have a3 := a3 hok
  refine ⟨a2, ?_⟩
  unfold withExtensions finally_
  generalize activateList L reg es s = R at *
  obtain ⟨res, t⟩ := R
  simp only at hok
  subst hok
  obtain ⟨m1, m2⟩ := hm t a1
  simp only
  generalize m t = N at *
  obtain ⟨r, t2⟩ := N
  obtain ⟨d1, d2, d3⟩ := deactivateList_active_set L reg hr (es.filter (· ∉ s.active)) t2 m1
  have hknown : ∀ f ∈ es.filter (· ∉ s.active), reg f ≠ none := by
    intro f hf
    exact a3 f ((a2 f).2 (.inr (List.mem_filter.1 hf).1))
  have hok := d2.2 hknown
  rw [takeWhile_all _ _ (fun y hy => Option.isSome_iff_ne_none.2 (hknown y hy))] at d3
  simp only
  generalize deactivateList L reg (es.filter (· ∉ s.active)) t2 = D at *
  obtain ⟨d, t3⟩ := D
  simp only at hok
  subst hok
  refine ⟨rfl, d1, fun f => ?_⟩
  have h1 := d3 f
  have h2 := m2 f
  have h3 := a2 f
  simp only at h1 h2 h3 ⊢
  rw [h1, h2, h3]
  simp only [List.mem_filter, decide_eq_true_eq, not_and, not_not]
  constructor
  · rintro ⟨h | h, h'⟩
    · exact h
    · exact h' h
  · exact fun h => ⟨.inl h, fun _ => h⟩

/-- The calls in a balanced body: the empty body, and a body of nested decorated calls. -/
theorem balanced_ret {R : Type} (r : R) : Balanced (M.ret r : X C A V E R) := fun _ hs => ⟨hs, fun _ => Iff.rfl⟩

theorem balanced_raise {R : Type} (err : Err) : Balanced (M.raise err : X C A V E R) := fun _ hs => ⟨hs, fun _ => Iff.rfl⟩

theorem balanced_seq {R Q : Type} {m : X C A V E R} {k : R → X C A V E Q} (hm : Balanced m) (hk : ∀ r, Balanced (k r)) :
    Balanced (m >>= k) := by
  intro s hs
  obtain ⟨h1, h2⟩ := hm s hs
  rw [M.bind_def]
  generalize m s = R at *
  obtain ⟨res, t⟩ := R
  cases res with
  | error err => exact ⟨h1, h2⟩
  | ok r =>
    obtain ⟨g1, g2⟩ := hk r t h1
    exact ⟨g1, fun f => (g2 f).trans (h2 f)⟩

/-! ## Examples and counterexamples

Class 1 is a subclass of class 0; 2 and 3 are unrelated. Values from 100 on are static methods: `getattr` turns 100 + n
into n. 0 is `None`. -/

def exL : Layout Nat Nat := ⟨fun c => if c = 1 then [0] else [], fun _ v => if 100 ≤ v then v - 100 else v, 0⟩

/-- Class 0 has the method 7 = 10; class 2 has 7 = 20. -/
def exBase : S Nat Nat Nat Nat :=
  ⟨fun c a => if c = 0 ∧ a = 7 then some 10 else if c = 2 ∧ a = 7 then some 20 else none, fun _ _ => none, fun _ _ => none, [], []⟩

/-- Class 0 and class 1 define the method 7 themselves. -/
def exBoth : S Nat Nat Nat Nat :=
  ⟨fun c a => if c = 0 ∧ a = 7 then some 10 else if c = 1 ∧ a = 7 then some 11 else none, fun _ _ => none, fun _ _ => none, [], []⟩

def exOne (c a : Nat) (w : Nat) : S Nat Nat Nat Nat :=
  ⟨fun c' a' => if c' = c ∧ a' = a then some w else none, fun _ _ => none, fun _ _ => none, [], []⟩

/-- Extension 0 overrides the method 7 of class 0 and adds a method 8 to class 1; extension 1 overrides the method 7 of
class 2; extension 2 collides with extension 0 in the second attribute; extension 3 has a setup function that raises;
extension 4 extends parent and child in this order, extension 5 the other way round. -/
def exReg : Nat → Option (ExtDef Nat Nat Nat)
  | 0 => some ⟨some false, some false, [(0, 7, 50), (1, 8, 51)]⟩
  | 1 => some ⟨none, none, [(2, 7, 52)]⟩
  | 2 => some ⟨none, none, [(3, 9, 53), (0, 7, 54)]⟩
  | 3 => some ⟨some true, none, [(0, 7, 55)]⟩
  | 4 => some ⟨none, none, [(0, 7, 56), (1, 7, 57)]⟩
  | 5 => some ⟨none, none, [(1, 7, 57), (0, 7, 56)]⟩
  | 6 => some ⟨none, some true, [(2, 7, 58)]⟩
  | _ => none

def exSmall : Nat → Option (ExtDef Nat Nat Nat) := fun e => if e < 2 then exReg e else none

theorem exFits0 : Fits exL exBase [((0 : Nat), (7 : Nat), (50 : Nat)), (1, 8, 51)] where
  nodup := by decide
  free := fun _ _ _ => ⟨rfl, rfl⟩
  plainS := by
    rintro c a - d w h d'
    simp only [exBase] at h
    split at h
    · cases h; rfl
    · split at h
      · cases h; rfl
      · cases h
  plainE := by
    intro c a v h d
    simp at h
    rcases h with ⟨-, -, rfl⟩ | ⟨-, -, rfl⟩ <;> rfl
  ownNone := by
    rintro c a ⟨v, h⟩
    simp at h
    rcases h with ⟨rfl, rfl, rfl⟩ | ⟨rfl, rfl, rfl⟩ <;> decide
  ownDiff := by
    rintro c a ⟨v, h⟩ w hw x hx
    simp at h
    rcases h with ⟨rfl, rfl, rfl⟩ | ⟨rfl, rfl, rfl⟩
    · simp [exL] at hx
    · simp [exBase] at hw
  ownFirst := by
    intro pre c a v post h hn x hx
    have : (c, a, v) ∈ [((0 : Nat), (7 : Nat), (50 : Nat)), (1, 8, 51)] := by rw [h]; simp
    simp at this
    rcases this with ⟨rfl, rfl, rfl⟩ | ⟨rfl, rfl, rfl⟩
    · simp [exL] at hx
    · exact absurd rfl hn
  inhLast := by
    intro pre c a v post h hn hf x hx
    have : (c, a, v) ∈ [((0 : Nat), (7 : Nat), (50 : Nat)), (1, 8, 51)] := by rw [h]; simp
    simp at this
    rcases this with ⟨rfl, rfl, rfl⟩ | ⟨rfl, rfl, rfl⟩
    · exact absurd hn (by decide)
    · exact absurd (by decide) hf

theorem exFits1 : Fits exL exBase [((2 : Nat), (7 : Nat), (52 : Nat))] where
  nodup := by decide
  free := fun _ _ _ => ⟨rfl, rfl⟩
  plainS := by
    rintro c a - d w h d'
    simp only [exBase] at h
    split at h
    · cases h; rfl
    · split at h
      · cases h; rfl
      · cases h
  plainE := by
    intro c a v h d
    simp at h
    obtain ⟨-, -, rfl⟩ := h; rfl
  ownNone := by
    rintro c a ⟨v, h⟩
    simp at h
    obtain ⟨rfl, rfl, rfl⟩ := h; decide
  ownDiff := by
    rintro c a ⟨v, h⟩ w hw x hx
    simp at h
    obtain ⟨rfl, rfl, rfl⟩ := h
    simp [exL] at hx
  ownFirst := by
    intro pre c a v post h hn x hx
    have : (c, a, v) ∈ [((2 : Nat), (7 : Nat), (52 : Nat))] := by rw [h]; simp
    simp at this
    obtain ⟨rfl, rfl, rfl⟩ := this
    simp [exL] at hx
  inhLast := by
    intro pre c a v post h hn hf x hx
    have : (c, a, v) ∈ [((2 : Nat), (7 : Nat), (52 : Nat))] := by rw [h]; simp
    simp at this
    obtain ⟨rfl, rfl, rfl⟩ := this
    simp [exL] at hx

theorem exLaws : Laws exL := by
  constructor
  · intro c h
    simp only [exL] at h
    split at h
    · next hc => subst hc; simp at h
    · simp at h
  · intro c d hd x hx
    simp only [exL] at hd
    split at hd
    · simp at hd; subst hd; simp [exL] at hx
    · simp at hd

theorem exSmall_cases {e : Nat} {x : ExtDef Nat Nat Nat} (h : exSmall e = some x) :
    (e = 0 ∧ x = ⟨some false, some false, [(0, 7, 50), (1, 8, 51)]⟩) ∨ (e = 1 ∧ x = ⟨none, none, [(2, 7, 52)]⟩) := by
  unfold exSmall at h
  split at h
  · next he =>
    match e, he with
    | 0, _ => left; exact ⟨rfl, (Option.some.inj h).symm⟩
    | 1, _ => right; exact ⟨rfl, (Option.some.inj h).symm⟩
  · cases h

/-- The hypotheses of `history_overlay_partial` hold for two extensions of a small hierarchy. -/
theorem exHarmless : Harmless exL exSmall exBase where
  laws := exLaws
  apart := by
    intro e f x y hx hy hne c d a hc hd
    obtain ⟨v, hc⟩ := hc
    obtain ⟨w, hd⟩ := hd
    rcases exSmall_cases hx with ⟨rfl, rfl⟩ | ⟨rfl, rfl⟩ <;> rcases exSmall_cases hy with ⟨rfl, rfl⟩ | ⟨rfl, rfl⟩ <;>
      simp at hc hd hne
    · obtain ⟨rfl, rfl, rfl⟩ := hd
      rcases hc with ⟨rfl, h, rfl⟩ | ⟨rfl, h, rfl⟩ <;> simp [exL]
    · obtain ⟨rfl, rfl, rfl⟩ := hc
      rcases hd with ⟨rfl, h, rfl⟩ | ⟨rfl, h, rfl⟩ <;> simp [exL]
  fits := by
    intro e x hx
    rcases exSmall_cases hx with ⟨rfl, rfl⟩ | ⟨rfl, rfl⟩
    · exact exFits0
    · exact exFits1
  setup := by
    intro e x hx
    rcases exSmall_cases hx with ⟨rfl, rfl⟩ | ⟨rfl, rfl⟩ <;> simp
  teardown := by
    intro e x hx
    rcases exSmall_cases hx with ⟨rfl, rfl⟩ | ⟨rfl, rfl⟩ <;> simp

/-- A history in which activations and deactivations are not nested, and a call raises. -/
def exOps : List (Op Nat) := [.act 0, .act 1, .deact 0, .act 5, .acts [0, 1], .deact 1]

example : (runOps exL exSmall exOps exBase).1.map (·.2) = [true, true, true, false, true, true] := by decide +kernel
example : (runOps exL exSmall exOps exBase).2.active = [0] := by decide +kernel
example : (runOps exL exSmall exOps exBase).2.attr 0 7 = some 50 ∧ (runOps exL exSmall exOps exBase).2.attr 2 7 = some 20 := by
  decide +kernel
example := history_overlay_partial exL exSmall exBase exHarmless rfl exOps
example := roundtrip_partial exL exLaws exReg 0 _ rfl exBase exFits0 (by simp [exBase]) (by simp) (by simp)

theorem exSmall_nodup : NodupKeys exSmall := by
  intro e x hx
  rcases exSmall_cases hx with ⟨rfl, rfl⟩ | ⟨rfl, rfl⟩ <;> decide

theorem exSmall_teardowns : TeardownsOk exSmall := exHarmless.teardown

example := in_force_partial exL exSmall exSmall_teardowns exSmall_nodup [.act 0, .act 1, .deact 0] exBase rfl (fun _ _ => rfl)
  (fun _ _ => rfl) (by decide +kernel)

example := with_statement_partial exL exSmall exSmall_teardowns [0, 1] (M.raise (.body 3) : X Nat Nat Nat Nat Unit)
  (balanced_raise _) exBase (by intro c a h; exact absurd rfl h) (by simp [exBase]) (by decide +kernel)

example : Balanced (withExtension exL exSmall 0 (withExtension exL exSmall 1 (M.raise (.body 3) : X Nat Nat Nat Nat Unit))) :=
  (with_extension_balanced exL exSmall exSmall_teardowns 0 _
    (with_extension_balanced exL exSmall exSmall_teardowns 1 _ (balanced_raise _)).1).1

/-- C35 is false in general: parent and child are extended in this order, and both define the method. After the round
trip the child has lost its own method. -/
theorem roundtrip_loses_own_method :
    let t := (activate exL exReg 4 exBoth).2
    let t' := (deactivate exL exReg 4 t).2
    (activate exL exReg 4 exBoth).1 = .ok () ∧ (deactivate exL exReg 4 t).1 = .ok () ∧
    exBoth.attr 1 7 = some 11 ∧ t'.attr 1 7 = none ∧ t'.active = exBoth.active := by decide +kernel

/-- The child is extended first and inherits the method: afterwards the child has the parent's method in its own
dictionary, so that later changes of the parent's method are not seen by the child. -/
theorem roundtrip_injects_inherited :
    let t := (activate exL exReg 5 exBase).2
    let t' := (deactivate exL exReg 5 t).2
    (activate exL exReg 5 exBase).1 = .ok () ∧ (deactivate exL exReg 5 t).1 = .ok () ∧
    exBase.attr 1 7 = none ∧ t'.attr 1 7 = some 10 := by decide +kernel

def regOne (c a v : Nat) : Nat → Option (ExtDef Nat Nat Nat) := fun _ => some ⟨none, none, [(c, a, v)]⟩

/-- An attribute of the class that is `None` is lost if the class has an ancestor without that attribute. -/
theorem roundtrip_loses_none :
    let t := (activate exL (regOne 1 7 5) 0 (exOne 1 7 0)).2
    let t' := (deactivate exL (regOne 1 7 5) 0 t).2
    (activate exL (regOne 1 7 5) 0 (exOne 1 7 0)).1 = .ok () ∧ (deactivate exL (regOne 1 7 5) 0 t).1 = .ok () ∧
    (exOne 1 7 0).attr 1 7 = some 0 ∧ t'.attr 1 7 = none := by decide +kernel

/-- A static method becomes an ordinary function. -/
theorem roundtrip_unwraps_staticmethod :
    let t := (activate exL (regOne 2 7 5) 0 (exOne 2 7 142)).2
    let t' := (deactivate exL (regOne 2 7 5) 0 t).2
    (activate exL (regOne 2 7 5) 0 (exOne 2 7 142)).1 = .ok () ∧ (deactivate exL (regOne 2 7 5) 0 t).1 = .ok () ∧
    (exOne 2 7 142).attr 2 7 = some 142 ∧ t'.attr 2 7 = some 42 := by decide +kernel

/-- C36: if the teardown function raises, the extension remains active without being in force. -/
theorem teardown_failure_stays_active :
    let t := (activate exL exReg 6 exBase).2
    let t' := (deactivate exL exReg 6 t).2
    (activate exL exReg 6 exBase).1 = .ok () ∧ (deactivate exL exReg 6 t).1 = .error .teardown ∧
    t'.active = [6] ∧ t'.attr 2 7 = some 20 := by decide +kernel

/-- C37: extension 2 collides with the active extension 0. Afterwards 0 is still active, but its method is not there. -/
theorem collision_example :
    let s := (activate exL exReg 0 exBase).2
    (activate exL exReg 2 s).1 = .error .collision ∧ s.attr 0 7 = some 50 ∧ (activate exL exReg 2 s).2.active = [0] ∧
    (activate exL exReg 2 s).2.attr 0 7 = some 10 := by decide +kernel

/-- If the setup function raises, a method that the class defines itself is deleted. -/
theorem setup_failure_deletes_method :
    (activate exL exReg 3 exBase).1 = .error .setup ∧ exBase.attr 0 7 = some 10 ∧
    (activate exL exReg 3 exBase).2.attr 0 7 = none := by decide +kernel

/-- C38: extension 1 is active, `with extension([0, 2])` collides; afterwards nothing is active. -/
theorem with_statement_failure_deactivates_all :
    let s := (activate exL exReg 1 exBase).2
    (withExtensions exL exReg [0, 2] (M.ret ()) s).1 = .error .collision ∧ s.active = [1] ∧
    (withExtensions exL exReg [0, 2] (M.ret ()) s).2.active = [] := by decide +kernel

/-! The hypotheses of the theorems about failures hold in these cases. -/

def exFail : Nat → Option (ExtDef Nat Nat Nat) := fun e => if e < 4 then exReg e else none

theorem exFail_all (P : ExtDef Nat Nat Nat → Prop) (h : ∀ e < 4, ∀ x, exReg e = some x → P x) (e : Nat) (x : ExtDef Nat Nat Nat)
    (hx : exFail e = some x) : P x := by
  unfold exFail at hx
  split at hx
  · next he => exact h e he x hx
  · cases hx

theorem exFail_teardowns : TeardownsOk exFail := fun e x hx => exFail_all (fun x => x.teardown ≠ some true) (by
  intro e he x hx
  match e, he with
  | 0, _ | 1, _ | 2, _ | 3, _ => cases hx; simp) e x hx

theorem exFail_nodup : NodupKeys exFail := fun e x hx =>
  exFail_all (fun x => (x.entries.map fun y => (y.1, y.2.1)).Nodup) (by
    intro e he x hx
    match e, he with
    | 0, _ | 1, _ | 2, _ | 3, _ => cases hx; simp) e x hx

theorem exBase_J : J exFail exBase :=
  ⟨fun _ _ h => absurd rfl h, by simp [exBase], by simp [exBase], by simp [exBase], fun _ _ _ h => by cases h⟩

theorem exAct0_J : J exFail (activate exL exFail 0 exBase).2 :=
  activate_J exL exFail exFail_teardowns exFail_nodup 0 exBase exBase_J (by decide +kernel)

theorem exAct0_marked : Marked (activate exL exFail 0 exBase).2 := by
  intro c a h
  obtain ⟨e', he'⟩ := Option.ne_none_iff_exists'.1 h
  obtain ⟨k1, x', k2, v, k3⟩ := exAct0_J.only c a e' he'
  rw [exAct0_J.on e' k1 x' k2 c a v k3]; simp

theorem exCollision : (activate exL exFail 2 (activate exL exFail 0 exBase).2).1 = .error .collision := by decide +kernel

theorem exCollision_run : ∃ t, activate exL exFail 2 (activate exL exFail 0 exBase).2 = (.error .collision, t) := by
  have := exCollision
  generalize activate exL exFail 2 (activate exL exFail 0 exBase).2 = R at *
  exact ⟨R.2, Prod.ext this rfl⟩

example (t : S Nat Nat Nat Nat) (h : activate exL exFail 2 (activate exL exFail 0 exBase).2 = (.error .collision, t)) :=
  collision_breaks_other exL exFail exFail_teardowns exFail_nodup 2 _ exAct0_J t h

example := failed_activation_local_partial exL exFail exFail_teardowns 2 _ exAct0_J.tidy exAct0_marked
  (by rw [exCollision]; simp)

example := failed_activation_no_trace_partial exL (fun _ => some ⟨some true, none, [(3, 9, 60)]⟩ : Nat → _)
  (fun _ _ h => by cases h; simp) 0 _ rfl exBase exBase_J.tidy (by simp [exBase]) rfl (by
    rintro c a ⟨v, h⟩
    simp at h
    obtain ⟨rfl, rfl, rfl⟩ := h
    decide)

example := active_set_exact exL exFail exFail_teardowns [.act 0, .act 2, .deact 9, .act 1] exBase exBase_J.tidy
  (by simp [exBase])
example : (runOps exL exFail [.act 0, .act 2, .deact 9, .act 1] exBase).1.map (·.2) =
    [true, false, false, true] := by decide +kernel

example := activate_active exL exFail 0 _ rfl { exBase with active := [0] } (by decide)
example := deactivate_inactive exL exFail 0 _ rfl exBase (by decide)

end Mdp.Ext
