/-!
# Python dictionaries as association lists in insertion order
-/

namespace Py

variable {K V : Type} [DecidableEq K]

/-- A dictionary: keys with values in insertion order. Every operation below keeps the keys distinct. -/
abbrev Dict (K V : Type) := List (K × V)

namespace Dict

/-- `d.get(k)` with `none` for a missing key -/
def get (d : Dict K V) (k : K) : Option V :=
  match d with
  | [] => none
  | (k', v) :: r => if k' = k then some v else get r k

/-- `d[k] = v` -/
def set (d : Dict K V) (k : K) (v : V) : Dict K V :=
  match d with
  | [] => [(k, v)]
  | (k', v') :: r => if k' = k then (k', v) :: r else (k', v') :: set r k v

/-- `del d[k]`, without effect for a missing key -/
def erase (d : Dict K V) (k : K) : Dict K V :=
  match d with
  | [] => []
  | (k', v') :: r => if k' = k then erase r k else (k', v') :: erase r k

/-- `d.update(e)` -/
def update (d e : Dict K V) : Dict K V :=
  match e with
  | [] => d
  | (k, v) :: r => update (set d k v) r

/-- The keys in order. -/
def keys (d : Dict K V) : List K := d.map Prod.fst

/-- Keys of a dictionary are distinct. -/
def Ok (d : Dict K V) : Prop := (keys d).Nodup

theorem get_set (d : Dict K V) (k : K) (v : V) (k' : K) :
    get (set d k v) k' = if k = k' then some v else get d k' := by
  induction d with
  | nil => simp only [set, get]
  | cons p d ih =>
    obtain ⟨a, b⟩ := p
    unfold set
    by_cases h : a = k
    · subst h
      simp only [if_true, get]
      by_cases h' : a = k' <;> simp [h']
    · rw [if_neg h]
      simp only [get]
      rw [ih]
      by_cases h' : a = k'
      · subst h'
        rw [if_pos rfl, if_neg (fun e => h e.symm), if_pos rfl]
      · rw [if_neg h', if_neg h']

theorem get_erase (d : Dict K V) (k k' : K) :
    get (erase d k) k' = if k = k' then none else get d k' := by
  induction d with
  | nil => simp only [erase, get]; split <;> rfl
  | cons p d ih =>
    obtain ⟨a, b⟩ := p
    unfold erase
    by_cases h : a = k
    · subst h
      rw [if_pos rfl, ih]
      by_cases h' : a = k'
      · rw [if_pos h', if_pos h']
      · rw [if_neg h', if_neg h']
        simp only [get, if_neg h']
    · rw [if_neg h]
      simp only [get]
      rw [ih]
      by_cases h' : a = k'
      · subst h'
        rw [if_pos rfl, if_neg (fun e => h e.symm), if_pos rfl]
      · rw [if_neg h', if_neg h']

theorem keys_get (d : Dict K V) (k : K) : k ∈ keys d ↔ (get d k).isSome = true := by
  induction d with
  | nil => simp [keys, get]
  | cons p d ih =>
    obtain ⟨a, b⟩ := p
    have ih' : k ∈ List.map Prod.fst d ↔ (get d k).isSome = true := ih
    simp only [keys, List.map_cons, List.mem_cons, get, ih']
    by_cases h : a = k
    · simp [h]
    · have h' : ¬ k = a := fun e => h e.symm
      simp [h, h']

theorem get_none (d : Dict K V) (k : K) : get d k = none ↔ k ∉ keys d := by
  rw [keys_get]
  cases get d k <;> simp

/-- In an update the entries of the second dictionary win. -/
theorem get_update (d e : Dict K V) (he : Ok e) (k : K) :
    get (update d e) k = (get e k).or (get d k) := by
  induction e generalizing d with
  | nil => simp only [update, get, Option.none_or]
  | cons p e ih =>
    obtain ⟨a, b⟩ := p
    have h1 : a ∉ keys e ∧ Ok e := List.nodup_cons.1 he
    simp only [update, ih _ h1.2, get_set, get]
    by_cases h : a = k
    · subst h
      simp [(get_none e a).2 h1.1]
    · simp [h]

theorem set_ok (d : Dict K V) (k : K) (v : V) (h : Ok d) : Ok (set d k v) := by
  induction d with
  | nil => simp [set, Ok, keys]
  | cons p d ih =>
    obtain ⟨a, b⟩ := p
    have h1 : a ∉ keys d ∧ Ok d := List.nodup_cons.1 h
    unfold set
    by_cases e : a = k
    · rw [if_pos e]; exact h
    · rw [if_neg e]
      refine List.nodup_cons.2 ⟨?_, ih h1.2⟩
      show a ∉ keys (set d k v)
      rw [← get_none, get_set, if_neg (fun x => e x.symm), get_none]
      exact h1.1

theorem update_ok (d e : Dict K V) (h : Ok d) : Ok (update d e) := by
  induction e generalizing d with
  | nil => exact h
  | cons p e ih => exact ih _ (set_ok d _ _ h)

theorem erase_ok (d : Dict K V) (k : K) (h : Ok d) : Ok (erase d k) := by
  induction d with
  | nil => exact h
  | cons p d ih =>
    obtain ⟨a, b⟩ := p
    have h1 : a ∉ keys d ∧ Ok d := List.nodup_cons.1 h
    unfold erase
    by_cases e : a = k
    · rw [if_pos e]; exact ih h1.2
    · rw [if_neg e]
      refine List.nodup_cons.2 ⟨?_, ih h1.2⟩
      show a ∉ keys (erase d k)
      rw [← get_none, get_erase, if_neg (fun x => e x.symm), get_none]
      exact h1.1

/-- Filtering by key. -/
theorem get_filter (d : Dict K V) (p : K → Bool) (k : K) :
    get (d.filter fun e => p e.1) k = if p k = true then get d k else none := by
  induction d with
  | nil => simp only [List.filter_nil, get]; split <;> rfl
  | cons e d ih =>
    obtain ⟨a, b⟩ := e
    rw [List.filter_cons]
    by_cases h : p a = true
    · simp only [h, if_true, get]
      by_cases h' : a = k
      · subst h'; simp [h]
      · simp only [if_neg h']; exact ih
    · simp only [h]
      rw [if_neg (by simp), ih]
      simp only [get]
      by_cases h' : a = k
      · subst h'; simp [h]
      · rw [if_neg h']

end Dict

end Py
