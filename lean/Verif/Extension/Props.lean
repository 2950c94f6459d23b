import Verif.Extension.Lemmas

/-!
# Extensions: C35-C38
-/

namespace Mdp.Ext

open Py

variable {C A V E : Type} [DecidableEq C] [DecidableEq A] [DecidableEq V] [DecidableEq E]

/-! ## What always holds -/

/-- A stored original is only there together with the attribute that replaces it. -/
def Tidy (s : S C A V E) : Prop := ∀ c a, s.orig c a ≠ none → s.attr c a ≠ none

theorem actOne_tidy (L : Layout C V) (e : E) (c : C) (a : A) (v : V) : M.Keeps Tidy (actOne L e c a v) := by
  intro s hs
  unfold actOne
  split
  · split
    · exact hs
    · intro c' a' h
      by_cases hk : c' = c ∧ a' = a
      · obtain ⟨rfl, rfl⟩ := hk
        show upd s.attr c' a' (some v) c' a' ≠ none
        simp
      · show upd s.attr c a (some v) c' a' ≠ none
        rw [upd_other _ _ _ _ _ _ hk]
        refine hs c' a' ?_
        have h : (if (find L s.tag c a).isNone then upd s.orig c a (some _) else s.orig) c' a' ≠ none := h
        split at h
        · rwa [upd_other _ _ _ _ _ _ hk] at h
        · exact h
  · intro c' a' h
    by_cases hk : c' = c ∧ a' = a
    · obtain ⟨rfl, rfl⟩ := hk
      show upd s.attr c' a' (some v) c' a' ≠ none
      simp
    · show upd s.attr c a (some v) c' a' ≠ none
      rw [upd_other _ _ _ _ _ _ hk]
      exact hs c' a' h

theorem actAll_tidy (L : Layout C V) (e : E) (es : List (C × A × V)) : M.Keeps Tidy (actAll L e es) := by
  induction es with
  | nil => exact .ret _
  | cons x r ih => exact .bind (actOne_tidy L e _ _ _) fun _ => ih

/-- Deactivating one attribute of one class succeeds, and afterwards no extension is marked there. -/
theorem deactOne_ok (L : Layout C V) (c : C) (a : A) (s : S C A V E) (hs : Tidy s) :
    ∃ t, deactOne L c a s = (.ok (), t) ∧ Tidy t ∧ t.active = s.active ∧ t.log = s.log ∧ t.tag c a = none ∧
      t.orig c a = none ∧ ∀ c' a', ¬ (c' = c ∧ a' = a) → SameKey s t c' a' := by
  unfold deactOne
  split
  · next w hw =>
    rw [if_neg (by
      have := hs c a (by rw [hw]; simp)
      simpa using this)]
    refine ⟨_, rfl, ?_, rfl, rfl, upd_same _ _ _ _, upd_same _ _ _ _, ?_⟩
    · intro c' a' h
      by_cases hk : c' = c ∧ a' = a
      · obtain ⟨rfl, rfl⟩ := hk
        exact absurd (upd_same _ _ _ _) h
      · have h1 : upd s.orig c a none c' a' ≠ none := h
        rw [upd_other _ _ _ _ _ _ hk] at h1
        have := hs c' a' h1
        show (if _ then upd (upd s.attr c a none) c a _ else upd s.attr c a none) c' a' ≠ none
        split
        · rwa [upd_other _ _ _ _ _ _ hk, upd_other _ _ _ _ _ _ hk]
        · rwa [upd_other _ _ _ _ _ _ hk]
    · intro c' a' hk
      refine ⟨?_, upd_other _ _ _ _ _ _ hk, upd_other _ _ _ _ _ _ hk⟩
      show (if _ then upd (upd s.attr c a none) c a _ else upd s.attr c a none) c' a' = _
      split
      · rw [upd_other _ _ _ _ _ _ hk, upd_other _ _ _ _ _ _ hk]
      · rw [upd_other _ _ _ _ _ _ hk]
  · next hw =>
    refine ⟨_, rfl, ?_, rfl, rfl, upd_same _ _ _ _, hw, ?_⟩
    · intro c' a' h
      have h : s.orig c' a' ≠ none := h
      have hk : ¬ (c' = c ∧ a' = a) := by rintro ⟨rfl, rfl⟩; exact h hw
      show upd s.attr c a none c' a' ≠ none
      rw [upd_other _ _ _ _ _ _ hk]
      exact hs c' a' h
    · intro c' a' hk
      exact ⟨upd_other _ _ _ _ _ _ hk, rfl, upd_other _ _ _ _ _ _ hk⟩

theorem deactAll_ok (L : Layout C V) (es : List (C × A × V)) (s : S C A V E) (hs : Tidy s) :
    ∃ t, deactAll L es s = (.ok (), t) ∧ Tidy t ∧ t.active = s.active ∧ t.log = s.log ∧
      (∀ c a, Declares es c a → t.tag c a = none ∧ t.orig c a = none) ∧ ∀ c a, ¬ Declares es c a → SameKey s t c a := by
  induction es generalizing s with
  | nil => exact ⟨s, rfl, hs, rfl, rfl, fun c a ⟨v, h⟩ => by simp at h, fun _ _ _ => ⟨rfl, rfl, rfl⟩⟩
  | cons x r ih =>
    obtain ⟨c, a, v⟩ := x
    obtain ⟨t1, h1, h2, h3, h4, h5, h5', h6⟩ := deactOne_ok L c a s hs
    obtain ⟨t2, g1, g2, g3, g4, g5, g6⟩ := ih t1 h2
    refine ⟨t2, ?_, g2, g3.trans h3, g4.trans h4, ?_, ?_⟩
    · show (deactOne L c a >>= fun _ => deactAll L r) s = _
      rw [M.bind_ok h1, g1]
    · intro c' a' ⟨v', hv'⟩
      by_cases hr : Declares r c' a'
      · exact g5 c' a' hr
      · rcases List.mem_cons.1 hv' with hv' | hv'
        · cases hv'
          obtain ⟨-, k2, k3⟩ := g6 _ _ hr
          exact ⟨k3.trans h5, k2.trans h5'⟩
        · exact absurd ⟨v', hv'⟩ hr
    · intro c' a' hn
      have n1 : ¬ (c' = c ∧ a' = a) := by rintro ⟨rfl, rfl⟩; exact hn ⟨v, by simp⟩
      have n2 : ¬ Declares r c' a' := fun ⟨w, hw⟩ => hn ⟨w, by simp [hw]⟩
      obtain ⟨k1, k2, k3⟩ := h6 c' a' n1
      obtain ⟨l1, l2, l3⟩ := g6 c' a' n2
      exact ⟨l1.trans k1, l2.trans k2, l3.trans k3⟩

/-- No teardown function raises. -/
def TeardownsOk (reg : E → Option (ExtDef C A V)) : Prop := ∀ e x, reg e = some x → x.teardown ≠ some true

theorem callHook_run (h : Option Bool) (ev : Call E) (err : Err) (s : S C A V E) :
    (callHook h ev err s).2.attr = s.attr ∧ (callHook h ev err s).2.orig = s.orig ∧ (callHook h ev err s).2.tag = s.tag ∧
    (callHook h ev err s).2.active = s.active ∧ ((callHook h ev err s).1 = .ok () ↔ h ≠ some true) := by
  unfold callHook
  cases h with
  | none => simp
  | some b => cases b <;> simp

/-- Deactivation of a registered extension. -/
theorem deactivate_run (L : Layout C V) (reg : E → Option (ExtDef C A V)) (hr : TeardownsOk reg) (e : E) (x : ExtDef C A V)
    (hx : reg e = some x) (s : S C A V E) (hs : Tidy s) (he : e ∈ s.active) :
    ∃ t u, deactAll L x.entries s = (.ok (), u) ∧ deactivate L reg e s = (.ok (), t) ∧ Tidy t ∧
      t.attr = u.attr ∧ t.orig = u.orig ∧ t.tag = u.tag ∧ t.active = s.active.filter (· ≠ e) ∧
      (∀ c a, Declares x.entries c a → t.tag c a = none ∧ t.orig c a = none) ∧
      ∀ c a, ¬ Declares x.entries c a → SameKey s t c a := by
  obtain ⟨u, h1, h2, h3, h4, h5, h6⟩ := deactAll_ok L x.entries s hs
  obtain ⟨c1, c2, c3, c4, c5⟩ := callHook_run x.teardown (.teardown e) .teardown u
  have hok := c5.2 (hr e x hx)
  generalize hR : callHook x.teardown (.teardown e) .teardown u = R at *
  obtain ⟨r, w⟩ := R
  simp only at hok
  subst hok
  refine ⟨{ w with active := w.active.filter (· ≠ e) }, u, h1, ?_, ?_, c1, c2, c3, ?_, ?_, ?_⟩
  · unfold deactivate
    rw [hx]
    simp only [if_pos he]
    rw [M.bind_ok h1, M.bind_ok hR]
    rfl
  · intro c a h
    have h : w.orig c a ≠ none := h
    show w.attr c a ≠ none
    simp only at c1 c2
    rw [c1]; rw [c2] at h; exact h2 c a h
  · show w.active.filter _ = _
    simp only at c4
    rw [c4, h3]
  · intro c a h
    show w.tag c a = none ∧ w.orig c a = none
    simp only at c2 c3
    rw [c2, c3]; exact h5 c a h
  · intro c a h
    obtain ⟨k1, k2, k3⟩ := h6 c a h
    simp only at c1 c2 c3
    refine ⟨?_, ?_, ?_⟩
    · show w.attr c a = _; rw [c1, k1]
    · show w.orig c a = _; rw [c2, k2]
    · show w.tag c a = _; rw [c3, k3]

/-! ## C36: idempotence and the set of active extensions -/

/-- Activating an active extension changes nothing. -/
theorem activate_active (L : Layout C V) (reg : E → Option (ExtDef C A V)) (e : E) (x : ExtDef C A V) (hx : reg e = some x)
    (s : S C A V E) (he : e ∈ s.active) : activate L reg e s = (.ok (), s) := by
  unfold activate; rw [hx]; simp only [if_pos he]

/-- Deactivating an inactive extension changes nothing. -/
theorem deactivate_inactive (L : Layout C V) (reg : E → Option (ExtDef C A V)) (e : E) (x : ExtDef C A V) (hx : reg e = some x)
    (s : S C A V E) (he : e ∉ s.active) : deactivate L reg e s = (.ok (), s) := by
  unfold deactivate; rw [hx]; simp only [if_neg he]

/-- Calls with unknown names raise and change nothing. -/
theorem unknown_extension (L : Layout C V) (reg : E → Option (ExtDef C A V)) (e : E) (hx : reg e = none)
    (s : S C A V E) : activate L reg e s = (.error .unknown, s) ∧ deactivate L reg e s = (.error .unknown, s) := by
  unfold activate deactivate; rw [hx]; exact ⟨rfl, rfl⟩

theorem actOne_active (L : Layout C V) (e : E) (c : C) (a : A) (v : V) (s : S C A V E) :
    (actOne L e c a v s).2.active = s.active := by
  unfold actOne; repeat' split
  all_goals rfl

theorem actAll_active (L : Layout C V) (e : E) (es : List (C × A × V)) (s : S C A V E) :
    (actAll L e es s).2.active = s.active := by
  have : M.Moves (fun s t : S C A V E => t.active = s.active) (actAll L e es) := by
    have hp : M.Pre (fun s t : S C A V E => t.active = s.active) := ⟨fun _ => rfl, fun h h' => h'.trans h⟩
    induction es with
    | nil => exact .ret hp _
    | cons x r ih => exact .bind hp (fun s => actOne_active L e _ _ _ s) fun _ => ih
  exact this s

/-- The first part of an activation: setup function and loops. -/
def body (L : Layout C V) (e : E) (x : ExtDef C A V) : X C A V E Unit := do
  callHook x.setup (.setup e) .setup; actAll L e x.entries

theorem body_facts (L : Layout C V) (e : E) (x : ExtDef C A V) (s : S C A V E) (hs : Tidy s) :
    (body L e x s).2.active = s.active ∧ Tidy (body L e x s).2 := by
  obtain ⟨c1, c2, c3, c4, c5⟩ := callHook_run x.setup (.setup e) .setup s
  unfold body
  rw [M.bind_def]
  have ht : Tidy (callHook x.setup (.setup e) .setup s).2 := by
    intro c a h; rw [c2] at h; rw [c1]; exact hs c a h
  split
  · next r t heq =>
    rw [heq] at c4 ht
    exact ⟨(actAll_active L e _ t).trans c4, actAll_tidy L e _ t ht⟩
  · next r t heq =>
    rw [heq] at c4 ht
    exact ⟨c4, ht⟩

/-- What an activation of an inactive extension amounts to. -/
theorem activate_run (L : Layout C V) (reg : E → Option (ExtDef C A V)) (hr : TeardownsOk reg) (e : E) (x : ExtDef C A V)
    (hx : reg e = some x) (s : S C A V E) (hs : Tidy s) (he : e ∉ s.active) :
    (∃ t, body L e x { s with active := s.active ++ [e] } = (.ok (), t) ∧ activate L reg e s = (.ok (), t) ∧ Tidy t ∧
      t.active = s.active ++ [e]) ∨
    (∃ err u t, body L e x { s with active := s.active ++ [e] } = (.error err, u) ∧ Tidy u ∧ u.active = s.active ++ [e] ∧
      deactivate L reg e u = (.ok (), t) ∧ activate L reg e s = (.error err, t) ∧ Tidy t ∧ t.active = s.active) := by
  have hb := body_facts L e x { s with active := s.active ++ [e] } hs
  generalize hR : body L e x { s with active := s.active ++ [e] } = R at *
  obtain ⟨r, u⟩ := R
  have hact : activate L reg e s = M.tryCatch (fun _ => (r, u)) (fun err => do deactivate L reg e; M.raise err) s := by
    unfold activate
    rw [hx]
    simp only [if_neg he]
    unfold M.tryCatch
    rw [show (do callHook x.setup (.setup e) .setup; actAll L e x.entries : X C A V E Unit) { s with active := s.active ++ [e] } = (r, u) from hR]
  cases r with
  | ok a =>
    left
    exact ⟨u, rfl, hact, hb.2, hb.1⟩
  | error err =>
    right
    obtain ⟨t, _, _, h2, h3, _, _, _, h4, _⟩ := deactivate_run L reg hr e x hx u hb.2 (by rw [hb.1]; simp)
    refine ⟨err, u, t, rfl, hb.2, hb.1, h2, hact.trans ?_, h3, ?_⟩
    · show (deactivate L reg e >>= fun _ => M.raise err) u = _
      rw [M.bind_ok h2]; rfl
    · rw [h4, hb.1]
      show (s.active ++ [e]).filter _ = _
      rw [List.filter_append, List.filter_eq_self.2 (by intro y hy; simp; rintro rfl; exact he hy)]
      simp

/-- `activate_extension(e)`: if it returns, `e` has been added to the active extensions; if it raises, they are as before.
No exception is lost or replaced. (Teardown functions must not raise.) -/
theorem activate_active_set (L : Layout C V) (reg : E → Option (ExtDef C A V)) (hr : TeardownsOk reg) (e : E)
    (s : S C A V E) (hs : Tidy s) :
    Tidy (activate L reg e s).2 ∧
    ((activate L reg e s).1 = .ok () → ∀ f, f ∈ (activate L reg e s).2.active ↔ f ∈ s.active ∨ f = e) ∧
    ((activate L reg e s).1 ≠ .ok () → (activate L reg e s).2.active = s.active) := by
  cases hx : reg e with
  | none => rw [(unknown_extension L reg e hx s).1]; exact ⟨hs, fun h => (by cases h), fun _ => rfl⟩
  | some x =>
    by_cases he : e ∈ s.active
    · rw [activate_active L reg e x hx s he]
      refine ⟨hs, fun _ f => ⟨.inl, ?_⟩, fun h => absurd rfl h⟩
      rintro (h | rfl)
      exacts [h, he]
    · rcases activate_run L reg hr e x hx s hs he with ⟨t, -, h1, h2, h3⟩ | ⟨err, u, t, -, -, -, -, h1, h2, h3⟩
      · rw [h1]; exact ⟨h2, fun _ f => by show f ∈ t.active ↔ _; rw [h3]; simp, fun h => absurd rfl h⟩
      · rw [h1]; exact ⟨h2, fun h => (by cases h), fun _ => h3⟩

/-- `deactivate_extension(e)` for a registered extension never raises; afterwards the active extensions are those before
without `e`. (Teardown functions must not raise.) -/
theorem deactivate_active_set (L : Layout C V) (reg : E → Option (ExtDef C A V)) (hr : TeardownsOk reg) (e : E)
    (s : S C A V E) (hs : Tidy s) :
    Tidy (deactivate L reg e s).2 ∧
    ((deactivate L reg e s).1 = .ok () ↔ reg e ≠ none) ∧
    (reg e ≠ none → ∀ f, f ∈ (deactivate L reg e s).2.active ↔ f ∈ s.active ∧ f ≠ e) ∧
    (reg e = none → (deactivate L reg e s).2 = s) := by
  cases hx : reg e with
  | none => rw [(unknown_extension L reg e hx s).2]; exact ⟨hs, by simp, fun h => absurd rfl h, fun _ => rfl⟩
  | some x =>
    by_cases he : e ∈ s.active
    · obtain ⟨t, -, -, h1, h2, -, -, -, h3, -⟩ := deactivate_run L reg hr e x hx s hs he
      rw [h1]
      refine ⟨h2, by simp, fun _ f => ?_, fun h => by cases h⟩
      show f ∈ t.active ↔ _
      rw [h3]; simp
    · rw [deactivate_inactive L reg e x hx s he]
      refine ⟨hs, by simp, fun _ f => ⟨fun h => ⟨h, by rintro rfl; exact he h⟩, fun h => h.1⟩, fun h => by cases h⟩

/-- Calls a program can make. -/
inductive Op (E : Type)
  | act (e : E)
  | deact (e : E)
  | acts (es : List E)
  | deacts (es : List E)
  deriving DecidableEq, Repr

def runOp (L : Layout C V) (reg : E → Option (ExtDef C A V)) : Op E → X C A V E Unit
  | .act e => activate L reg e
  | .deact e => deactivate L reg e
  | .acts es => activateList L reg es
  | .deacts es => deactivateList L reg es

/-- A history of calls, with their outcomes; the program goes on after an exception. -/
def runOps (L : Layout C V) (reg : E → Option (ExtDef C A V)) : List (Op E) → S C A V E → List (Op E × Bool) × S C A V E
  | [], s => ([], s)
  | o :: r, s =>
    let (res, s') := runOp L reg o s
    let (l, s'') := runOps L reg r s'
    ((o, res.isOk) :: l, s'')

/-- Which extensions should be active after a history, from its calls and their outcomes: a call that returned has done
what its name says; a call of `activate_extension` or `deactivate_extension` that raised has done nothing; when
`activate_extensions` raised, nothing is active; when `deactivate_extensions(es)` raised, the names before the first unknown
one have been deactivated. -/
def shouldBeActive (reg : E → Option (ExtDef C A V)) : List (Op E × Bool) → (E → Prop) → E → Prop
  | [], P => P
  | (.act e, true) :: r, P => shouldBeActive reg r fun f => P f ∨ f = e
  | (.act _, false) :: r, P => shouldBeActive reg r P
  | (.deact e, true) :: r, P => shouldBeActive reg r fun f => P f ∧ f ≠ e
  | (.deact _, false) :: r, P => shouldBeActive reg r P
  | (.acts es, true) :: r, P => shouldBeActive reg r fun f => P f ∨ f ∈ es
  | (.acts _, false) :: r, _ => shouldBeActive reg r fun _ => False
  | (.deacts es, true) :: r, P => shouldBeActive reg r fun f => P f ∧ f ∉ es
  | (.deacts es, false) :: r, P => shouldBeActive reg r fun f => P f ∧ f ∉ es.takeWhile fun e => (reg e).isSome

theorem deactivateList_active_set (L : Layout C V) (reg : E → Option (ExtDef C A V)) (hr : TeardownsOk reg) (es : List E)
    (s : S C A V E) (hs : Tidy s) :
    Tidy (deactivateList L reg es s).2 ∧
    ((deactivateList L reg es s).1 = .ok () ↔ ∀ e ∈ es, reg e ≠ none) ∧
    (∀ f, f ∈ (deactivateList L reg es s).2.active ↔ f ∈ s.active ∧ f ∉ es.takeWhile fun e => (reg e).isSome) := by
  induction es generalizing s with
  | nil => exact ⟨hs, by simp [deactivateList], fun f => by simp [deactivateList]⟩
  | cons e r ih =>
    obtain ⟨h1, h2, h3, h4⟩ := deactivate_active_set L reg hr e s hs
    unfold deactivateList
    rw [M.bind_def]
    generalize deactivate L reg e s = R at *
    obtain ⟨res, t⟩ := R
    cases res with
    | error err =>
      have hn : reg e = none := by
        by_contra hc
        have := h2.2 hc
        cases this
      refine ⟨h1, by simp [hn], fun f => ?_⟩
      have := h4 hn
      simp only at this ⊢
      rw [this, List.takeWhile_cons_of_neg (by simp [hn])]
      simp
    | ok u =>
      have hn : reg e ≠ none := h2.1 rfl
      obtain ⟨g1, g2, g3⟩ := ih t h1
      refine ⟨g1, g2.trans ?_, fun f => ?_⟩
      · simp [hn]
      · rw [g3, List.takeWhile_cons_of_pos (by simpa [Option.isSome_iff_ne_none] using hn)]
        have := h3 hn f
        simp only at this
        rw [this]
        simp [and_assoc]

theorem takeWhile_all {W : Type} (p : W → Bool) (l : List W) (h : ∀ x ∈ l, p x = true) : l.takeWhile p = l := by
  induction l with
  | nil => rfl
  | cons x r ih => rw [List.takeWhile_cons_of_pos (h x (by simp)), ih fun y hy => h y (by simp [hy])]

theorem activateLoop_active_set (L : Layout C V) (reg : E → Option (ExtDef C A V)) (hr : TeardownsOk reg) (es : List E)
    (s : S C A V E) (hs : Tidy s) (hreg : ∀ e ∈ s.active, reg e ≠ none) :
    Tidy (activateLoop L reg es s).2 ∧ (∀ e ∈ (activateLoop L reg es s).2.active, reg e ≠ none) ∧
    ((activateLoop L reg es s).1 = .ok () → ∀ f, f ∈ (activateLoop L reg es s).2.active ↔ f ∈ s.active ∨ f ∈ es) := by
  induction es generalizing s with
  | nil => exact ⟨hs, hreg, fun _ f => by simp [activateLoop]⟩
  | cons e r ih =>
    obtain ⟨h1, h2, h3⟩ := activate_active_set L reg hr e s hs
    have hu := unknown_extension L reg e (s := s)
    unfold activateLoop
    rw [M.bind_def]
    generalize activate L reg e s = R at *
    obtain ⟨res, t⟩ := R
    cases res with
    | error err =>
      have := h3 (by simp)
      refine ⟨h1, fun f hf => ?_, fun h => by cases h⟩
      simp only at this hf
      rw [this] at hf; exact hreg f hf
    | ok u =>
      have h2 := h2 rfl
      simp only at h2
      obtain ⟨g1, g2, g3⟩ := ih t h1 (by
        intro f hf
        rcases (h2 f).1 hf with hf | rfl
        · exact hreg f hf
        · intro hc
          have := (hu hc).1
          cases this)
      refine ⟨g1, g2, fun hok f => ?_⟩
      rw [g3 hok f, h2]
      simp [or_assoc]

theorem activateList_active_set (L : Layout C V) (reg : E → Option (ExtDef C A V)) (hr : TeardownsOk reg) (es : List E)
    (s : S C A V E) (hs : Tidy s) (hreg : ∀ e ∈ s.active, reg e ≠ none) :
    Tidy (activateList L reg es s).2 ∧
    ((activateList L reg es s).1 = .ok () → ∀ f, f ∈ (activateList L reg es s).2.active ↔ f ∈ s.active ∨ f ∈ es) ∧
    ((activateList L reg es s).1 = .ok () → ∀ e ∈ (activateList L reg es s).2.active, reg e ≠ none) ∧
    ((activateList L reg es s).1 ≠ .ok () → (activateList L reg es s).2.active = []) := by
  obtain ⟨h1, h2, h3⟩ := activateLoop_active_set L reg hr es s hs hreg
  unfold activateList M.tryCatch
  generalize activateLoop L reg es s = R at *
  obtain ⟨res, t⟩ := R
  cases res with
  | ok u => exact ⟨h1, h3, fun _ => h2, fun h => absurd rfl h⟩
  | error err =>
    obtain ⟨g1, g2, g3⟩ := deactivateList_active_set L reg hr t.active t h1
    simp only at h2 ⊢
    have hok := g2.2 h2
    rw [M.bind_def, M.get_def]
    simp only
    rw [M.bind_def]
    generalize deactivateList L reg t.active t = Q at *
    obtain ⟨q, w⟩ := Q
    simp only at hok
    subst hok
    refine ⟨g1, fun h => (by cases h), fun h => (by cases h), fun _ => ?_⟩
    show w.active = []
    rw [List.eq_nil_iff_forall_not_mem]
    intro f hf
    have := (g3 f).1 hf
    rw [takeWhile_all _ _ (fun y hy => Option.isSome_iff_ne_none.2 (h2 y hy))] at this
    exact this.2 this.1

/-- C36, first half: after any history of calls, whatever the extensions overlap in and whichever calls raise,
`get_active_extensions()` are exactly those that should be active. (Teardown functions must not raise; see
`teardown_failure_stays_active`.) -/
theorem active_set_exact (L : Layout C V) (reg : E → Option (ExtDef C A V)) (hr : TeardownsOk reg) (ops : List (Op E))
    (s : S C A V E) (hs : Tidy s) (hreg : ∀ e ∈ s.active, reg e ≠ none) :
    ∀ f, f ∈ (runOps L reg ops s).2.active ↔ shouldBeActive reg (runOps L reg ops s).1 (· ∈ s.active) f := by
  suffices h : ∀ (P : E → Prop), (∀ f, P f ↔ f ∈ s.active) → ∀ f, f ∈ (runOps L reg ops s).2.active ↔
      shouldBeActive reg (runOps L reg ops s).1 P f from h _ fun _ => Iff.rfl
  induction ops generalizing s with
  | nil => intro P hP f; exact (hP f).symm
  | cons o r ih =>
    intro P hP
    simp only [runOps]
    cases o with
    | act e =>
      obtain ⟨h1, h2, h3⟩ := activate_active_set L reg hr e s hs
      have hu := unknown_extension L reg e (s := s)
      simp only [runOp]
      generalize activate L reg e s = R at *
      obtain ⟨res, t⟩ := R
      cases res with
      | ok u =>
        have h2 := h2 rfl
        refine ih t h1 (fun f hf => ?_) _ fun f => ?_
        · rcases (h2 f).1 hf with hf | rfl
          · exact hreg f hf
          · intro hc
            have := (hu hc).1
            cases this
        · rw [hP]; exact (h2 f).symm
      | error err =>
        have h3 : t.active = s.active := h3 (by simp)
        refine ih t h1 (fun f hf => hreg f (by rwa [← h3])) _ fun f => ?_
        rw [hP, h3]
    | deact e =>
      obtain ⟨h1, h2, h3, h4⟩ := deactivate_active_set L reg hr e s hs
      simp only [runOp]
      generalize deactivate L reg e s = R at *
      obtain ⟨res, t⟩ := R
      cases res with
      | ok u =>
        have h3 := h3 (h2.1 rfl)
        refine ih t h1 (fun f hf => hreg f ((h3 f).1 hf).1) _ fun f => ?_
        rw [hP]; exact (h3 f).symm
      | error err =>
        have h4 : t = s := h4 (by by_contra hc; cases h2.2 hc)
        subst h4
        exact ih t h1 hreg _ hP
    | acts es =>
      obtain ⟨h1, h2, h3, h4⟩ := activateList_active_set L reg hr es s hs hreg
      simp only [runOp]
      generalize activateList L reg es s = R at *
      obtain ⟨res, t⟩ := R
      cases res with
      | ok u =>
        refine ih t h1 (h3 rfl) _ fun f => ?_
        rw [hP]; exact (h2 rfl f).symm
      | error err =>
        have h4 : t.active = [] := h4 (by simp)
        refine ih t h1 (by rw [h4]; simp) _ fun f => ?_
        rw [h4]; simp
    | deacts es =>
      obtain ⟨h1, h2, h3⟩ := deactivateList_active_set L reg hr es s hs
      simp only [runOp]
      generalize deactivateList L reg es s = R at *
      obtain ⟨res, t⟩ := R
      cases res with
      | ok u =>
        refine ih t h1 (fun f hf => hreg f ((h3 f).1 hf).1) _ fun f => ?_
        rw [hP]
        have := h3 f
        rw [takeWhile_all _ _ (fun y hy => Option.isSome_iff_ne_none.2 (h2.1 rfl y hy))] at this
        exact this.symm
      | error err =>
        refine ih t h1 (fun f hf => hreg f ((h3 f).1 hf).1) _ fun f => ?_
        rw [hP]; exact (h3 f).symm

end Mdp.Ext
