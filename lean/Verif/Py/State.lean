/-!
# Python code that mutates an object and may raise

`M ε σ α` is a computation on an object with state `σ` that returns an `α` or raises an `ε`. The
state mutated before an exception is kept, as in Python.
-/

namespace Py

def M (ε σ α : Type) := σ → Except ε α × σ

namespace M

variable {ε σ α β : Type}

/-- `return a` -/
def ret (a : α) : M ε σ α := fun s => (.ok a, s)

/-- `raise e` -/
def raise (e : ε) : M ε σ α := fun s => (.error e, s)

/-- sequencing; an exception skips the rest -/
def andThen (m : M ε σ α) (f : α → M ε σ β) : M ε σ β := fun s =>
  match m s with
  | (.ok a, s') => f a s'
  | (.error e, s') => (.error e, s')

instance : Monad (M ε σ) where
  pure := ret
  bind := andThen

/-- read the object -/
def get : M ε σ σ := fun s => (.ok s, s)

/-- mutate the object -/
def modify (f : σ → σ) : M ε σ Unit := fun s => (.ok (), f s)

/-- `try: m except e: h(e)` -/
def tryCatch (m : M ε σ α) (h : ε → M ε σ α) : M ε σ α := fun s =>
  match m s with
  | (.ok a, s') => (.ok a, s')
  | (.error e, s') => h e s'

/-- lift a pure outcome -/
def lift (r : Except ε α) : M ε σ α := fun s => (r, s)

/-- `if c: m` -/
def when (c : Prop) [Decidable c] (m : M ε σ Unit) : M ε σ Unit := if c then m else ret ()

@[simp] theorem pure_def (a : α) (s : σ) : (pure a : M ε σ α) s = (.ok a, s) := rfl
@[simp] theorem ret_def (a : α) (s : σ) : (ret a : M ε σ α) s = (.ok a, s) := rfl
@[simp] theorem raise_def (e : ε) (s : σ) : (raise e : M ε σ α) s = (.error e, s) := rfl
@[simp] theorem get_def (s : σ) : (get : M ε σ σ) s = (.ok s, s) := rfl
@[simp] theorem modify_def (f : σ → σ) (s : σ) : (modify f : M ε σ Unit) s = (.ok (), f s) := rfl
@[simp] theorem lift_def (r : Except ε α) (s : σ) : (lift r : M ε σ α) s = (r, s) := rfl

theorem bind_def (m : M ε σ α) (f : α → M ε σ β) (s : σ) :
    (m >>= f) s = match m s with
      | (.ok a, s') => f a s'
      | (.error e, s') => (.error e, s') := rfl

theorem bind_ok {m : M ε σ α} {f : α → M ε σ β} {s s' : σ} {a : α} (h : m s = (.ok a, s')) :
    (m >>= f) s = f a s' := by simp [bind_def, h]

theorem bind_error {m : M ε σ α} {f : α → M ε σ β} {s s' : σ} {e : ε} (h : m s = (.error e, s')) :
    (m >>= f) s = (.error e, s') := by simp [bind_def, h]

theorem bind_eq_ok {m : M ε σ α} {f : α → M ε σ β} {s s'' : σ} {b : β}
    (h : (m >>= f) s = (.ok b, s'')) : ∃ a s', m s = (.ok a, s') ∧ f a s' = (.ok b, s'') := by
  rw [bind_def] at h
  split at h
  · next a s' hm => exact ⟨a, s', hm, h⟩
  · cases h

/-! ### Two-state relations: everything `m` does, normally or exceptionally, is an `R` step -/

/-- `m` only ever moves along `R`. -/
def Moves (R : σ → σ → Prop) (m : M ε σ α) : Prop := ∀ s, R s (m s).2

structure Pre (R : σ → σ → Prop) : Prop where
  refl : ∀ s, R s s
  trans : ∀ {a b c}, R a b → R b c → R a c

theorem Moves.ret {R : σ → σ → Prop} (hR : Pre R) (a : α) : Moves R (ret a : M ε σ α) :=
  fun s => hR.refl s

theorem Moves.pure {R : σ → σ → Prop} (hR : Pre R) (a : α) : Moves R (Pure.pure a : M ε σ α) :=
  fun s => hR.refl s

theorem Moves.raise {R : σ → σ → Prop} (hR : Pre R) (e : ε) : Moves R (raise e : M ε σ α) :=
  fun s => hR.refl s

theorem Moves.get {R : σ → σ → Prop} (hR : Pre R) : Moves R (get : M ε σ σ) :=
  fun s => hR.refl s

theorem Moves.lift {R : σ → σ → Prop} (hR : Pre R) (r : Except ε α) : Moves R (lift r : M ε σ α) :=
  fun s => hR.refl s

theorem Moves.modify {R : σ → σ → Prop} {f : σ → σ} (h : ∀ s, R s (f s)) :
    Moves R (modify f : M ε σ Unit) := h

theorem Moves.bind {R : σ → σ → Prop} (hR : Pre R) {m : M ε σ α} {f : α → M ε σ β}
    (hm : Moves R m) (hf : ∀ a, Moves R (f a)) : Moves R (m >>= f) := by
  intro s
  rw [bind_def]
  have := hm s
  split
  · next a s' heq => rw [heq] at this; exact hR.trans this (hf a s')
  · next e s' heq => rw [heq] at this; exact this

theorem Moves.tryCatch {R : σ → σ → Prop} (hR : Pre R) {m : M ε σ α} {h : ε → M ε σ α}
    (hm : Moves R m) (hh : ∀ e, Moves R (h e)) : Moves R (tryCatch m h) := by
  intro s
  unfold M.tryCatch
  have := hm s
  split
  · next a s' heq => rw [heq] at this; exact this
  · next e s' heq => rw [heq] at this; exact hR.trans this (hh e s')

theorem Moves.ite {R : σ → σ → Prop} {c : Prop} [Decidable c] {m n : M ε σ α}
    (hm : Moves R m) (hn : Moves R n) : Moves R (if c then m else n) := by
  split <;> assumption

theorem Moves.when {R : σ → σ → Prop} (hR : Pre R) {c : Prop} [Decidable c] {m : M ε σ Unit}
    (hm : Moves R m) : Moves R (when c m) := by
  unfold M.when
  split
  · exact hm
  · exact Moves.ret hR _

/-- `get` followed by a continuation: the continuation may use what it read. -/
theorem Moves.get_bind {R : σ → σ → Prop} {f : σ → M ε σ β}
    (hf : ∀ s, R s (f s s).2) : Moves R (M.get >>= f) := fun s => hf s

/-! ### Invariants -/

/-- `m` preserves `I`, whether it returns or raises. -/
def Keeps (I : σ → Prop) (m : M ε σ α) : Prop := ∀ s, I s → I (m s).2

theorem Keeps.pure {I : σ → Prop} (a : α) : Keeps I (Pure.pure a : M ε σ α) := fun _ h => h
theorem Keeps.raise {I : σ → Prop} (e : ε) : Keeps I (raise e : M ε σ α) := fun _ h => h
theorem Keeps.get {I : σ → Prop} : Keeps I (get : M ε σ σ) := fun _ h => h
theorem Keeps.lift {I : σ → Prop} (r : Except ε α) : Keeps I (lift r : M ε σ α) := fun _ h => h

theorem Keeps.bind {I : σ → Prop} {m : M ε σ α} {f : α → M ε σ β}
    (hm : Keeps I m) (hf : ∀ a, Keeps I (f a)) : Keeps I (m >>= f) := by
  intro s hs
  rw [bind_def]
  have := hm s hs
  split
  · next a s' heq => rw [heq] at this; exact hf a s' this
  · next e s' heq => rw [heq] at this; exact this

theorem Keeps.ite {I : σ → Prop} {c : Prop} [Decidable c] {m n : M ε σ α}
    (hm : Keeps I m) (hn : Keeps I n) : Keeps I (if c then m else n) := by
  split <;> assumption

theorem Keeps.ret {I : σ → Prop} (a : α) : Keeps I (ret a : M ε σ α) := fun _ h => h

theorem Keeps.when {I : σ → Prop} {c : Prop} [Decidable c] {m : M ε σ Unit}
    (hm : Keeps I m) : Keeps I (when c m) := by
  unfold M.when
  split
  · exact hm
  · exact Keeps.ret _

end M

end Py
