/-!
# Semantics of Python `while` loops

A loop body is a function `step : σ → σ ⊕ ρ`: `inl s'` means "go round again in state `s'`",
`inr r` means "the loop is left with result `r`".  `Returns step s r` says that the loop started
in `s` terminates with `r`; there is no bound on the number of iterations.
-/

namespace Py

/-- Run a loop for at most `n` iterations. -/
def runFuel {σ ρ : Type _} (step : σ → σ ⊕ ρ) : Nat → σ → Option ρ
  | 0, _ => none
  | n + 1, s =>
    match step s with
    | .inl s' => runFuel step n s'
    | .inr r => some r

/-- The loop `step`, started in `s`, terminates and yields `r`. -/
def Returns {σ ρ : Type _} (step : σ → σ ⊕ ρ) (s : σ) (r : ρ) : Prop :=
  ∃ n, runFuel step n s = some r

theorem runFuel_mono {σ ρ : Type _} (step : σ → σ ⊕ ρ) :
    ∀ (n m : Nat) (s : σ) (r : ρ), n ≤ m → runFuel step n s = some r → runFuel step m s = some r
  | 0, _, _, _, _, h => by simp [runFuel] at h
  | n + 1, 0, _, _, hle, _ => by omega
  | n + 1, m + 1, s, r, hle, h => by
    simp only [runFuel] at h ⊢
    cases hs : step s with
    | inl s' => rw [hs] at h; exact runFuel_mono step n m s' r (by omega) h
    | inr r' => rw [hs] at h; exact h

/-- A loop has at most one result. -/
theorem Returns.det {σ ρ : Type _} {step : σ → σ ⊕ ρ} {s : σ} {r r' : ρ}
    (h : Returns step s r) (h' : Returns step s r') : r = r' := by
  obtain ⟨n, hn⟩ := h
  obtain ⟨m, hm⟩ := h'
  have h1 := runFuel_mono step n (max n m) s r (by omega) hn
  have h2 := runFuel_mono step m (max n m) s r' (by omega) hm
  rw [h1] at h2
  exact Option.some.inj h2

theorem Returns.of_inl {σ ρ : Type _} {step : σ → σ ⊕ ρ} {s s' : σ} {r : ρ}
    (hs : step s = .inl s') (h : Returns step s' r) : Returns step s r := by
  obtain ⟨n, hn⟩ := h
  exact ⟨n + 1, by simp [runFuel, hs, hn]⟩

theorem Returns.of_inr {σ ρ : Type _} {step : σ → σ ⊕ ρ} {s : σ} {r : ρ}
    (hs : step s = .inr r) : Returns step s r :=
  ⟨1, by simp [runFuel, hs]⟩

/-- Total correctness rule: an invariant, a measure that decreases, and a postcondition. -/
theorem Returns.rule {σ ρ : Type _} {step : σ → σ ⊕ ρ} (Inv : σ → Prop) (μ : σ → Nat)
    (Post : ρ → Prop)
    (hstep : ∀ s s', Inv s → step s = .inl s' → Inv s' ∧ μ s' < μ s)
    (hdone : ∀ s r, Inv s → step s = .inr r → Post r)
    (s : σ) (h : Inv s) : ∃ r, Returns step s r ∧ Post r := by
  induction hn : μ s using Nat.strongRecOn generalizing s with
  | ind n ih =>
    cases hs : step s with
    | inl s' =>
      have ⟨hi, hlt⟩ := hstep s s' h hs
      obtain ⟨r, hr, hp⟩ := ih (μ s') (by omega) s' hi rfl
      exact ⟨r, Returns.of_inl hs hr, hp⟩
    | inr r => exact ⟨r, Returns.of_inr hs, hdone s r h hs⟩

/-- Partial correctness rule. -/
theorem Returns.partial_rule {σ ρ : Type _} {step : σ → σ ⊕ ρ} (Inv : σ → Prop) (Post : ρ → Prop)
    (hstep : ∀ s s', Inv s → step s = .inl s' → Inv s')
    (hdone : ∀ s r, Inv s → step s = .inr r → Post r)
    (s : σ) (h : Inv s) (r : ρ) (hr : Returns step s r) : Post r := by
  obtain ⟨n, hn⟩ := hr
  induction n generalizing s with
  | zero => simp [runFuel] at hn
  | succ n ih =>
    simp only [runFuel] at hn
    cases hs : step s with
    | inl s' => rw [hs] at hn; exact ih s' (hstep s s' h hs) hn
    | inr r' =>
      rw [hs] at hn
      cases hn
      exact hdone s r h hs

end Py
