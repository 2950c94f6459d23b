import Verif.Bi.Coroutine

/-!
# Properties of coroutine methods

C147: a coroutine method continues where it stopped, call by call, until it ends or the node is reset.
-/

namespace Bi.Coroutine

open Py

variable {A R G : Type}

/-! ### Specification -/

/-- The body run with the arguments of one call after the other. `none` if it ended before the last call. -/
def replay (b : Body A R G) : List A → Option (Step R G)
  | [] => none
  | a :: r => go (b.start a) r
where
  /-- the calls after the first -/
  go : Step R G → List A → Option (Step R G)
  | s, [] => some s
  | .yields _ g, a :: r => go (b.resume g a) r
  | _, _ :: _ => none

/-- The result of the last of the calls `as` made since the body was started: the value that the body yields then; nothing
if it ends. -/
def expected (b : Body A R G) (as : List A) : Res R :=
  match replay b as with
  | some (.yields r _) => .value r
  | some (.returns (some v)) => .tuple v
  | _ => .none

/-- The arguments of the calls since the body was started last: it starts again after its end and after a reset. -/
def since (b : Body A R G) (name : Str) : List A → List (Event A) → List A
  | as, [] => as
  | _, .reset :: r => since b name [] r
  | as, .call k a :: r =>
    if k = name then
      match replay b (as ++ [a]) with
      | some (.yields _ _) => since b name (as ++ [a]) r
      | _ => since b name [] r
    else since b name as r

/-- No body raises an exception. -/
def NoRaise (bodies : Str → Body A R G) : Prop :=
  ∀ k, (∀ a e, (bodies k).start a ≠ .raises e) ∧ ∀ g a e, (bodies k).resume g a ≠ .raises e

/-! ### The invariant -/

theorem replay_snoc (b : Body A R G) (as : List A) (a : A) (hne : as ≠ []) :
    replay b (as ++ [a]) = match replay b as with
      | some (.yields _ g) => some (b.resume g a)
      | _ => none := by
  have go : ∀ (l : List A) (s : Step R G), replay.go b s (l ++ [a]) = match replay.go b s l with
      | some (.yields _ g) => some (b.resume g a)
      | _ => none := by
    intro l
    induction l with
    | nil =>
      intro s
      cases s <;> simp [replay.go]
    | cons c l ih =>
      intro s
      cases s with
      | yields r g => simp only [List.cons_append, replay.go]; exact ih _
      | returns v => simp [replay.go]
      | raises e => simp [replay.go]
  cases as with
  | nil => exact absurd rfl hne
  | cons c l => exact go l (b.start c)

/-- The state of the node for every method: not started, or suspended where the calls since its start have brought it. -/
structure Good (bodies : Str → Body A R G) (pend : Str → List A) (s : Node G) : Prop where
  keys : ∀ d, s.instances = some d → Dict.Ok d
  idle : ∀ k, pend k = [] → k ∉ s.attrs ∧ ∀ d, s.instances = some d → Dict.get d k = .none
  busy : ∀ k, pend k ≠ [] → k ∈ s.attrs ∧ ∃ d r g, s.instances = some d ∧ Dict.get d k = some (.live g) ∧
    replay (bodies k) (pend k) = some (.yields r g)

theorem good_call {bodies : Str → Body A R G} (hn : NoRaise bodies) {pend : Str → List A} {s : Node G}
    (h : Good bodies pend s) (name : Str) (a : A) :
    ∃ s', call (bodies name) name a s = (.ok (expected (bodies name) (pend name ++ [a])), s') ∧
      Good bodies (fun k => if k = name then
        (match replay (bodies name) (pend name ++ [a]) with
          | some (.yields _ _) => pend name ++ [a]
          | _ => []) else pend k) s' := by
  -- the step of the body, and the node before it is done
  have key : ∃ (st : Step R G) (s1 : Node G), Bi.Coroutine.call (bodies name) name a s = outcome name st s1 ∧
      replay (bodies name) (pend name ++ [a]) = some st ∧ (∀ e, st ≠ .raises e) ∧ name ∈ s1.attrs ∧
      (∃ d i, s1.instances = some d ∧ Dict.Ok d ∧ Dict.get d name = some i) ∧
      (∀ k, k ≠ name → (k ∈ s1.attrs ↔ k ∈ s.attrs) ∧ ∀ d1, s1.instances = some d1 →
        Dict.get d1 k = (s.instances.bind fun d => Dict.get d k)) := by
    by_cases hp : pend name = []
    · obtain ⟨h1, h2⟩ := h.idle name hp
      refine ⟨(bodies name).start a, ⟨some (Dict.set (s.instances.getD []) name .dead), s.attrs ++ [name]⟩, ?_, by rw [hp]; rfl, (hn name).1 a, by simp, ?_, ?_⟩
      · unfold Bi.Coroutine.call initialization
        simp only [M.bind_def, M.get_def, h1, if_false, M.modify]
      · refine ⟨_, .dead, rfl, Dict.set_ok _ _ _ ?_, by rw [Dict.get_set, if_pos rfl]⟩
        cases hi : s.instances with
        | none => exact List.nodup_nil
        | some d => exact h.keys d hi
      · intro k hk
        refine ⟨by simp [hk], ?_⟩
        rintro d1 ⟨⟩
        rw [Dict.get_set, if_neg (Ne.symm hk)]
        cases s.instances <;> rfl
    · obtain ⟨h1, d, r, g, h2, h3, h4⟩ := h.busy name hp
      refine ⟨(bodies name).resume g a, s, ?_, ?_, (hn name).2 g a, h1, ⟨d, _, h2, h.keys d h2, h3⟩, ?_⟩
      · unfold Bi.Coroutine.call interface
        simp only [M.bind_def, M.get_def, h1, if_true, h2, h3]
      · rw [replay_snoc _ _ _ hp, h4]
      · intro k _
        refine ⟨Iff.rfl, ?_⟩
        intro d1 hd1
        rw [hd1]
        rfl
  obtain ⟨st, s1, e1, e2, e3, e4, ⟨d, i, e5, e6, e7⟩, e8⟩ := key
  rw [e1]
  unfold expected
  rw [e2]
  have hother : ∀ k, k ≠ name → ∀ s2 : Node G, (k ∈ s2.attrs ↔ k ∈ s1.attrs) →
      (∀ d2, s2.instances = some d2 → Dict.get d2 k = Dict.get d k) → s2.instances.isSome = true →
      (pend k = [] → k ∉ s2.attrs ∧ ∀ d, s2.instances = some d → Dict.get d k = .none) ∧
      (pend k ≠ [] → k ∈ s2.attrs ∧ ∃ d r g, s2.instances = some d ∧ Dict.get d k = some (.live g) ∧
        replay (bodies k) (pend k) = some (.yields r g)) := by
    intro k hk s2 ha hd hsome
    obtain ⟨f1, f2⟩ := e8 k hk
    have f2 := f2 d e5
    constructor
    · intro hp
      obtain ⟨g1, g2⟩ := h.idle k hp
      refine ⟨fun hx => g1 (f1.1 (ha.1 hx)), ?_⟩
      intro d2 hd2
      rw [hd d2 hd2, f2]
      cases hi : s.instances with
      | none => rfl
      | some d0 => exact g2 d0 hi
    · intro hp
      obtain ⟨g1, d0, r, g, g2, g3, g4⟩ := h.busy k hp
      obtain ⟨d2, hd2⟩ := Option.isSome_iff_exists.1 hsome
      refine ⟨ha.2 (f1.2 g1), d2, r, g, hd2, ?_, g4⟩
      rw [hd d2 hd2, f2, g2]
      exact g3
  cases st with
  | raises e => exact absurd rfl (e3 e)
  | yields r g =>
    refine ⟨{ s1 with instances := some (Dict.set d name (.live g)) }, ?_, ?_⟩
    · simp only [outcome, setInstance, M.bind_def, e5, Option.getD_some]
      rfl
    · refine ⟨?_, ?_, ?_⟩
      · rintro d2 ⟨⟩
        exact Dict.set_ok _ _ _ e6
      · intro k hk
        by_cases hkn : k = name
        · subst hkn
          simp at hk
        · rw [if_neg hkn] at hk
          refine (hother k hkn { s1 with instances := some (Dict.set d name (.live g)) } Iff.rfl ?_ rfl).1 hk
          rintro d2 ⟨⟩
          rw [Dict.get_set, if_neg (Ne.symm hkn)]
      · intro k hk
        by_cases hkn : k = name
        · subst hkn
          rw [if_pos rfl] at hk ⊢
          exact ⟨e4, _, r, g, rfl, by rw [Dict.get_set, if_pos rfl], e2⟩
        · rw [if_neg hkn] at hk ⊢
          refine (hother k hkn { s1 with instances := some (Dict.set d name (.live g)) } Iff.rfl ?_ rfl).2 hk
          rintro d2 ⟨⟩
          rw [Dict.get_set, if_neg (Ne.symm hkn)]
  | returns v =>
    refine ⟨{ instances := some (Dict.erase d name), attrs := s1.attrs.filter (· ≠ name) }, ?_, ?_⟩
    · simp only [outcome, finish, M.bind_def, delattr, delInstance, e4, if_true, e5, e7]
      cases v <;> rfl
    · refine ⟨?_, ?_, ?_⟩
      · rintro d2 ⟨⟩
        exact Dict.erase_ok _ _ e6
      · intro k hk
        by_cases hkn : k = name
        · subst hkn
          refine ⟨by simp, ?_⟩
          rintro d2 ⟨⟩
          rw [Dict.get_erase, if_pos rfl]
        · rw [if_neg hkn] at hk
          refine (hother k hkn _ ?_ ?_ rfl).1 hk
          · simp [hkn]
          · rintro d2 ⟨⟩
            rw [Dict.get_erase, if_neg (Ne.symm hkn)]
      · intro k hk
        by_cases hkn : k = name
        · subst hkn
          simp at hk
        · rw [if_neg hkn] at hk ⊢
          refine (hother k hkn _ ?_ ?_ rfl).2 hk
          · simp [hkn]
          · rintro d2 ⟨⟩
            rw [Dict.get_erase, if_neg (Ne.symm hkn)]

theorem delAll_ok : ∀ (ks : List Str) (s : Node G), ks.Nodup → (∀ k ∈ ks, k ∈ s.attrs) →
    ∃ s', delAll ks s = (.ok (), s') ∧ s'.attrs = s.attrs.filter (· ∉ ks) := by
  intro ks
  induction ks with
  | nil => intro s _ _; exact ⟨s, rfl, (List.filter_eq_self.2 (by simp)).symm⟩
  | cons k ks ih =>
    intro s hn hs
    have hk := hs k (by simp)
    rw [List.nodup_cons] at hn
    obtain ⟨s', h1, h2⟩ := ih { s with attrs := s.attrs.filter (· ≠ k) } hn.2 (by
      intro k' hk'
      simp only [List.mem_filter, decide_eq_true_eq]
      refine ⟨hs k' (by simp [hk']), ?_⟩
      simp only [ne_eq, decide_not, Bool.not_eq_eq_eq_not, Bool.not_true, decide_eq_false_iff_not]
      rintro rfl
      exact hn.1 hk')
    refine ⟨s', ?_, ?_⟩
    · simp only [delAll, M.bind_def, delattr, hk, if_true]
      exact h1
    · rw [h2, List.filter_filter]
      congr 1
      funext x
      by_cases hx : x = k <;> simp [hx]

theorem good_reset {bodies : Str → Body A R G} {pend : Str → List A} {s : Node G} (h : Good bodies pend s) :
    ∃ s', biReset s = (.ok (), s') ∧ Good bodies (fun _ => []) s' := by
  cases hi : s.instances with
  | none =>
    refine ⟨s, ?_, ?_, ?_, ?_⟩
    · unfold biReset
      simp only [M.bind_def, M.get_def, hi]
      rfl
    · intro d hd; rw [hi] at hd; cases hd
    · intro k _
      by_cases hp : pend k = []
      · exact h.idle k hp
      · obtain ⟨_, d, _, _, h2, _⟩ := h.busy k hp
        rw [hi] at h2
        cases h2
    · intro k hk; exact absurd rfl hk
  | some d =>
    have hkeys : ∀ k, k ∈ Dict.keys d ↔ k ∈ s.attrs := by
      intro k
      by_cases hp : pend k = []
      · obtain ⟨h1, h2⟩ := h.idle k hp
        exact ⟨fun hk => absurd hk ((Dict.get_none d k).1 (h2 d hi)), fun hk => absurd hk h1⟩
      · obtain ⟨h1, d', r, g, h2, h3, _⟩ := h.busy k hp
        rw [hi] at h2
        cases h2
        exact ⟨fun _ => h1, fun _ => (Dict.keys_get d k).2 (by rw [h3]; rfl)⟩
    obtain ⟨s', h1, h2⟩ := delAll_ok (Dict.keys d) s (h.keys d hi) fun k hk => (hkeys k).1 hk
    refine ⟨{ s' with instances := .none }, ?_, ?_, ?_, ?_⟩
    · unfold biReset
      simp only [M.bind_def, M.get_def, hi, h1]
      rfl
    · intro d hd; cases hd
    · intro k _
      refine ⟨?_, fun d hd => by cases hd⟩
      simp only [h2, List.mem_filter, decide_eq_true_eq, not_and]
      intro hk
      simp [(hkeys k).2 hk]
    · intro k hk; exact absurd rfl hk

/-! ### C147 -/

/-- What the calls of a history should give, for the calls `pend k` made since the body of method `k` was started. -/
def results (bodies : Str → Body A R G) : (Str → List A) → List (Event A) → List (Except Err (Res R))
  | _, [] => []
  | _, .reset :: r => results bodies (fun _ => []) r
  | pend, .call k a :: r => .ok (expected (bodies k) (pend k ++ [a])) ::
      results bodies (fun k' => if k' = k then
        (match replay (bodies k) (pend k ++ [a]) with
          | some (.yields _ _) => pend k ++ [a]
          | _ => []) else pend k') r

theorem history_results {bodies : Str → Body A R G} (hn : NoRaise bodies) : ∀ (es : List (Event A)) (pend : Str → List A)
    (s : Node G), Good bodies pend s → (history bodies es s).1 = results bodies pend es ∧
      ∃ pend', Good bodies pend' (history bodies es s).2 ∧ ∀ k, pend' k = since (bodies k) k (pend k) es := by
  intro es
  induction es with
  | nil => intro pend s h; exact ⟨rfl, pend, h, fun _ => rfl⟩
  | cons e es ih =>
    intro pend s h
    cases e with
    | reset =>
      obtain ⟨s', h1, h2⟩ := good_reset h
      simp only [history, results, h1]
      obtain ⟨g1, pend', g2, g3⟩ := ih _ s' h2
      exact ⟨g1, pend', g2, fun k => by rw [g3 k]; rfl⟩
    | call name a =>
      obtain ⟨s', h1, h2⟩ := good_call hn h name a
      simp only [history, results, h1]
      obtain ⟨g1, pend', g2, g3⟩ := ih _ s' h2
      refine ⟨by rw [g1], pend', g2, ?_⟩
      intro k
      rw [g3 k]
      by_cases hk : k = name
      · subst hk
        simp only [if_true, since]
        generalize replay (bodies k) (pend k ++ [a]) = q
        cases q with
        | none => rfl
        | some st => cases st <;> rfl
      · simp only [if_neg hk, since, if_neg (Ne.symm hk)]

/-- **C147, partial**: for bodies that raise no exception, whatever happened to a fresh node before (calls of this and
other coroutine methods, resets): a call gives what the body yields when it is run with the arguments of all calls of this
method since its start. It starts again after its end and after a reset; other methods do not matter. -/
theorem coroutine_continues_partial {bodies : Str → Body A R G} (hn : NoRaise bodies) (es : List (Event A)) (name : Str)
    (a : A) :
    (call (bodies name) name a (history bodies es {}).2).1 =
      .ok (expected (bodies name) (since (bodies name) name [] es ++ [a])) := by
  have h0 : Good bodies (fun _ => []) ({} : Node G) := by
    refine ⟨?_, ?_, ?_⟩
    · intro d hd; cases hd
    · intro k _; exact ⟨by simp, fun d hd => by cases hd⟩
    · intro k hk; exact absurd rfl hk
  obtain ⟨_, pend', g2, g3⟩ := history_results hn es _ _ h0
  obtain ⟨s', h1, _⟩ := good_call hn g2 name a
  rw [h1, g3 name]

/-- **C147**: `bi_reset` never fails on such a node, and removes all traces of the coroutines. -/
theorem reset_clears {bodies : Str → Body A R G} (hn : NoRaise bodies) (es : List (Event A)) :
    ∃ s', biReset (history bodies es {}).2 = (.ok (), s') ∧ s'.instances.getD [] = [] ∧ s'.attrs = [] := by
  have h0 : Good bodies (fun _ => []) ({} : Node G) := by
    refine ⟨?_, ?_, ?_⟩
    · intro d hd; cases hd
    · intro k _; exact ⟨by simp, fun d hd => by cases hd⟩
    · intro k hk; exact absurd rfl hk
  obtain ⟨_, pend', g2, _⟩ := history_results hn es _ _ h0
  obtain ⟨s', h1, h2⟩ := good_reset g2
  refine ⟨s', h1, ?_, ?_⟩
  · cases hi : s'.instances with
    | none => rfl
    | some d =>
      simp only [Option.getD_some]
      cases d with
      | nil => rfl
      | cons e d =>
        have := (h2.idle e.1 rfl).2 _ hi
        simp [Dict.get] at this
  · rw [List.eq_nil_iff_forall_not_mem]
    exact fun k => (h2.idle k rfl).1

/-- **C147** fails for exceptions: after the body has raised one, the next call does not start it again; it returns `None`
without running anything. -/
theorem after_exception_false (b : Body A R G) (name : Str) {a : A} {e : Err} (h : b.start a = .raises e) (a' : A) :
    ∃ s', call b name a {} = (.error e, s') ∧ (call b name a' s').1 = .ok .none := by
  refine ⟨⟨some [(name, .dead)], [name]⟩, ?_, ?_⟩
  · unfold call initialization
    simp [M.bind_def, M.get_def, h, outcome, M.modify, Dict.set, setInstance, M.raise]
  · unfold call interface
    simp [M.bind_def, M.get_def, Dict.set, Dict.get, finish, delattr, delInstance, M.modify, setInstance]

/-- **C147** fails for a value that the body returns: the call gives the tuple whose only element is the value. -/
theorem returned_value_false (b : Body A R G) (name : Str) {a : A} {v : R} (h : b.start a = .returns (some v)) :
    (call b name a {}).1 = .ok (.tuple v) := by
  unfold call initialization
  simp [M.bind_def, M.get_def, h, outcome, finish, delattr, delInstance, M.modify, Dict.set, Dict.get]

/-- A body that adds up its arguments, three times. -/
def adder : Body Nat Nat (Nat × Nat) where
  start := fun a => .yields a (a, 2)
  resume := fun g a => if g.2 = 0 then .returns none else .yields (g.1 + a) (g.1 + a, g.2 - 1)

example : NoRaise fun _ : Str => adder := by
  intro k
  refine ⟨fun a e => ?_, fun g a e => ?_⟩
  · simp [adder]
  · simp only [adder]
    split <;> simp

example : (history (fun _ => adder) [.call ['p'] 1, .call ['q'] 10, .call ['p'] 2, .call ['p'] 3, .call ['p'] 4,
      .call ['p'] 5, .reset, .call ['p'] 6, .call ['q'] 7] {}).1.map (fun r => match r with
      | .ok (.value v) => v
      | _ => 0) = [1, 10, 3, 6, 0, 5, 6, 7] := by decide

/-- A body that fails at once for the argument 0. -/
def failing : Body Nat Nat Nat where
  start := fun a => if a = 0 then .raises .hook else .returns (some a)
  resume := fun _ _ => .returns none

example : (history (fun _ => failing) [.call ['p'] 0, .call ['p'] 1, .call ['p'] 2] {}).1.map (fun r => match r with
      | .ok (.value _) => 0
      | .ok (.tuple v) => 10 + v
      | .ok .none => 1
      | .error _ => 2) = [2, 1, 12] := by decide

end Bi.Coroutine
