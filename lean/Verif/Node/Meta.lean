import Mathlib.Data.List.Basic
import Mathlib.Data.List.Induction
import Mathlib.Tactic.Common

/-!
# The wrappers made by the metaclass of nodes

Models `NodeMetaclass` of `mdp/signal_node.py` (lines 56-230) for one pair of methods, such as `_execute`
and `execute`: when a class defines the private method and not the public one, the metaclass gives it a
public method with the documentation (and, perhaps, the signature) of the private one.  Classes are
numbered in the order of their creation; `anc c` is the list of the proper ancestors of `c` in the order
in which Python searches them.  Evaluating the source text of the wrapper is modelled by what the
wrapper does: it calls a fixed function, or the method found after its class at the time of the call.
-/

namespace Mdp.Meta

/-- A function of the source: `doc = none` is a missing or empty doc string; `kwargs`: the signature
ends with `**kwargs` (`_function_infodict`, lines 138-186). -/
structure Fn where
  id : Nat
  doc : Option Nat
  sig : Nat
  kwargs : Bool
deriving DecidableEq, Repr

/-- What a class statement says about the two methods. -/
structure Def where
  pub : Option Fn
  priv : Option Fn
deriving DecidableEq, Repr

/-- A public attribute of a class: the function of the source; a wrapper that calls the method found
after its class (`_wrap_method`, lines 212-228); a wrapper that calls a function
(`_wrap_function`, lines 188-210). -/
inductive Kind where
  | plain | viaSuper | direct
deriving DecidableEq, Repr

/-- `fn` is the function itself, or `_undecorated_`. -/
structure Attr where
  kind : Kind
  fn : Fn
  doc : Option Nat
  sig : Nat
deriving DecidableEq, Repr

abbrev World := Nat → Option Attr

def plain (f : Fn) : Attr := { kind := .plain, fn := f, doc := f.doc, sig := f.sig }

def set (w : World) (c : Nat) (a : Attr) : World := fun d => if d = c then some a else w d

/-- The search of an attribute along a list of classes. -/
def look (w : World) (l : List Nat) : Option (Nat × Attr) :=
  l.findSome? (fun c => (w c).map (fun a => (c, a)))

/-- `NodeMetaclass.__new__` (lines 72-101) with `_select_private_methods_to_wrap` and `_get_infos`;
`none`: the `AttributeError` of `getattr(super(new_cls, new_cls), wrapper_name)`. -/
def create (anc : Nat → List Nat) (w : World) (c : Nat) (d : Def) : Option World :=
  match d.pub with
  | some f => some (set w c (plain f))
  | none =>
    match d.priv with
    | none => some w
    | some p =>
      match look w (anc c) with
      | none => none
      | some (_, a) =>
        some (set w c
          { kind := if a.kind = .plain then .viaSuper else .direct
            fn := a.fn
            doc := p.doc.or a.doc
            sig := if a.fn.kwargs then p.sig else a.fn.sig })

/-- The first `n` class statements. -/
def build (anc : Nat → List Nat) (defs : Nat → Def) : Nat → Option World
  | 0 => some (fun _ => none)
  | n + 1 => (build anc defs n).bind (fun w => create anc w n (defs n))

/-- The function of the source that a call of the public method runs in the end, the attribute being
searched along `l`; the first argument bounds the number of calls through `super`. -/
def run (anc : Nat → List Nat) (w : World) : Nat → List Nat → Option Fn
  | n, l =>
    match look w l with
    | none => none
    | some (d, a) =>
      match a.kind, n with
      | .viaSuper, n + 1 => run anc w n (anc d)
      | .viaSuper, 0 => none
      | _, _ => some a.fn

/-! ### Specification -/

/-- The public method of the source nearest in the order of search. -/
def nearestPub (defs : Nat → Def) (l : List Nat) : Option Fn := l.findSome? (fun c => (defs c).pub)

/-- The documentation: that of the nearest class that has the public method, or a documented private
one. -/
def docSpec (defs : Nat → Def) : List Nat → Option Nat
  | [] => none
  | c :: l =>
    match (defs c).pub with
    | some f => f.doc
    | none =>
      match (defs c).priv with
      | some p => p.doc.or (docSpec defs l)
      | none => docSpec defs l

/-- The signature: that of the public method if it has no `**kwargs`, otherwise that of the nearest
method, private or public. -/
def sigSpec (defs : Nat → Def) (l : List Nat) : Option Nat :=
  (nearestPub defs l).bind fun f =>
    if f.kwargs then
      l.findSome? (fun c => (((defs c).pub).or (defs c).priv).map (·.sig))
    else some f.sig

/-- Each class is searched before its ancestors, whose order is that of the search of the class: single
inheritance, and also multiple inheritance where no class is inserted before an ancestor of another
one. -/
def Single (anc : Nat → List Nat) : Prop :=
  ∀ c d l, anc c = d :: l → d < c ∧ l = anc d

/-! ### Invariant -/

structure Good (anc : Nat → List Nat) (defs : Nat → Def) (w : World) (l : List Nat) : Prop where
  fn : (look w l).map (fun x => x.2.fn) = nearestPub defs l
  doc : ((look w l).bind fun x => x.2.doc) = docSpec defs l
  sig : (look w l).map (fun x => x.2.sig) = sigSpec defs l
  kinds : ∀ d a, look w l = some (d, a) →
    (a.kind = .plain → (defs d).pub = some a.fn) ∧
    (a.kind ≠ .plain → (defs d).pub = none ∧ (defs d).priv ≠ none) ∧
    (a.kind = .viaSuper → ∃ e b, look w (anc d) = some (e, b) ∧ b.kind = .plain ∧ b.fn = a.fn) ∧
    (a.kind = .direct → ∃ e b, look w (anc d) = some (e, b) ∧ b.kind ≠ .plain ∧ b.fn = a.fn)

theorem look_cons (w : World) (c : Nat) (l : List Nat) :
    look w (c :: l) = match w c with | some a => some (c, a) | none => look w l := by
  unfold look
  rw [List.findSome?_cons]
  cases w c <;> simp

theorem look_congr (w w' : World) (l : List Nat) (h : ∀ c ∈ l, w c = w' c) : look w l = look w' l := by
  induction l with
  | nil => rfl
  | cons c l ih =>
    rw [look_cons, look_cons, h c (by simp), ih (fun d hd => h d (by simp [hd]))]

theorem look_mem (w : World) (l : List Nat) (d : Nat) (a : Attr) (h : look w l = some (d, a)) :
    d ∈ l ∧ w d = some a := by
  induction l with
  | nil => simp [look] at h
  | cons c l ih =>
    rw [look_cons] at h
    cases hc : w c with
    | none => rw [hc] at h; have := ih h; exact ⟨by simp [this.1], this.2⟩
    | some b =>
      rw [hc] at h
      simp only [Option.some.injEq, Prod.mk.injEq] at h
      rw [← h.1, ← h.2]
      exact ⟨by simp, hc⟩

theorem anc_lt {anc : Nat → List Nat} (h : Single anc) (c d : Nat) (hd : d ∈ anc c) : d < c := by
  induction c using Nat.strongRecOn with
  | _ c ih =>
    cases hc : anc c with
    | nil => simp [hc] at hd
    | cons e l =>
      obtain ⟨h1, h2⟩ := h c e l hc
      rw [hc] at hd
      rcases List.mem_cons.1 hd with q | q
      · omega
      · rw [h2] at q
        have := ih e h1 q
        omega

theorem good_nil (anc : Nat → List Nat) (defs : Nat → Def) (w : World) : Good anc defs w [] := by
  constructor <;> simp [look, nearestPub, docSpec, sigSpec]

theorem good_congr {anc : Nat → List Nat} (hs : Single anc) (defs : Nat → Def) (w w' : World)
    (n : Nat) (h : ∀ c < n, w c = w' c) (l : List Nat) (hl : ∀ c ∈ l, c < n)
    (g : Good anc defs w l) : Good anc defs w' l := by
  have e : look w' l = look w l := (look_congr w w' l (fun c hc => h c (hl c hc))).symm
  refine ⟨by rw [e]; exact g.fn, by rw [e]; exact g.doc, by rw [e]; exact g.sig, ?_⟩
  intro d a hd
  rw [e] at hd
  have hm := (look_mem w l d a hd).1
  have e2 : look w' (anc d) = look w (anc d) :=
    (look_congr w w' (anc d) (fun c hc => h c (Nat.lt_trans (anc_lt hs d c hc) (hl d hm)))).symm
  rw [e2]
  exact g.kinds d a hd

theorem good_build {anc : Nat → List Nat} (hs : Single anc) (defs : Nat → Def) (n : Nat) (w : World)
    (h : build anc defs n = some w) :
    (∀ c < n, Good anc defs w (c :: anc c)) ∧ ∀ c, n ≤ c → w c = none := by
  induction n generalizing w with
  | zero =>
    simp only [build, Option.some.injEq] at h
    subst h
    exact ⟨by omega, fun _ _ => rfl⟩
  | succ n ih =>
    simp only [build] at h
    obtain ⟨v, hv, hc⟩ := Option.bind_eq_some_iff.1 h
    obtain ⟨g, hnone⟩ := ih v hv
    -- the ancestors of the new class
    have ganc : Good anc defs v (anc n) := by
      cases hn : anc n with
      | nil => exact good_nil _ _ _
      | cons e l =>
        obtain ⟨h1, h2⟩ := hs n e l hn
        rw [h2]; exact g e h1
    have lt : ∀ d ∈ anc n, d < n := fun d hd => anc_lt hs n d hd
    -- the old classes
    have old : (∀ c < n, v c = w c) → ∀ c < n, Good anc defs w (c :: anc c) := by
      intro hvw c hcn
      refine good_congr hs defs v w n hvw _ ?_ (g c hcn)
      intro d hd
      rcases List.mem_cons.1 hd with q | q
      · omega
      · have := anc_lt hs c d q; omega
    have step : (∀ c < n, v c = w c) → Good anc defs w (n :: anc n) →
        ∀ c < n + 1, Good anc defs w (c :: anc c) := by
      intro hvw hn c hcn
      by_cases q : c = n
      · subst q; exact hn
      · exact old hvw c (by omega)
    simp only [create] at hc
    split at hc
    · -- the public method is defined
      rename_i f hf
      simp only [Option.some.injEq] at hc
      subst hc
      have hvw : ∀ c < n, v c = set v n (plain f) c := by
        intro c hcn; simp [set, show c ≠ n by omega]
      refine ⟨step hvw ?_, ?_⟩
      · have hl : look (set v n (plain f)) (n :: anc n) = some (n, plain f) := by
          rw [look_cons]; simp [set]
        refine ⟨?_, ?_, ?_, ?_⟩
        · rw [hl]; simp [nearestPub, hf, plain]
        · rw [hl]; simp [docSpec, hf, plain]
        · rw [hl]; simp [sigSpec, nearestPub, hf, plain]
        · intro d a hd
          rw [hl] at hd
          simp only [Option.some.injEq, Prod.mk.injEq] at hd
          obtain ⟨rfl, rfl⟩ := hd
          simp [plain, hf]
      · intro c hcn
        simp only [set, show c ≠ n by omega, if_false]
        exact hnone c (by omega)
    · rename_i hf
      split at hc
      · -- nothing is defined
        rename_i hp
        simp only [Option.some.injEq] at hc
        subst hc
        refine ⟨step (fun _ _ => rfl) ?_, fun c hcn => hnone c (by omega)⟩
        have hl : look v (n :: anc n) = look v (anc n) := by
          rw [look_cons, hnone n (Nat.le_refl n)]
        refine ⟨?_, ?_, ?_, ?_⟩
        · rw [hl, ganc.fn]; simp [nearestPub, hf]
        · rw [hl, ganc.doc]; simp [docSpec, hf, hp]
        · rw [hl, ganc.sig]; simp [sigSpec, nearestPub, hf, hp]
        · rw [hl]; exact ganc.kinds
      · -- a wrapper is made
        rename_i p hp
        split at hc
        · simp at hc
        · rename_i x e a hla
          simp only [Option.some.injEq] at hc
          obtain ⟨b, hb⟩ : ∃ b : Attr, b =
              { kind := if a.kind = .plain then Kind.viaSuper else Kind.direct
                fn := a.fn
                doc := p.doc.or a.doc
                sig := if a.fn.kwargs then p.sig else a.fn.sig } := ⟨_, rfl⟩
          rw [← hb] at hc
          subst hc
          have hvw : ∀ c < n, v c = set v n b c := by
            intro c hcn; simp [set, show c ≠ n by omega]
          have hl : look (set v n b) (n :: anc n) = some (n, b) := by
            rw [look_cons]; simp [set]
          have ha : look (set v n b) (anc n) = some (e, a) := by
            rw [← look_congr v (set v n b) (anc n) (fun c hc => hvw c (lt c hc))]
            exact hla
          have hfn : nearestPub defs (anc n) = some a.fn := by rw [← ganc.fn, hla]; rfl
          have hdoc : docSpec defs (anc n) = a.doc := by rw [← ganc.doc, hla]; rfl
          refine ⟨step hvw ?_, ?_⟩
          · refine ⟨?_, ?_, ?_, ?_⟩
            · rw [hl, hb]
              simp only [Option.map_some]
              rw [← hfn]; simp [nearestPub, hf]
            · rw [hl, hb]
              simp [docSpec, hf, hp, hdoc]
            · rw [hl, hb]
              have : nearestPub defs (n :: anc n) = some a.fn := by
                rw [← hfn]; simp [nearestPub, hf]
              simp only [sigSpec, this, Option.map_some, Option.bind_some]
              split <;> simp [hf, hp]
            · intro d b' hd
              rw [hl] at hd
              simp only [Option.some.injEq, Prod.mk.injEq] at hd
              obtain ⟨rfl, rfl⟩ := hd
              rw [ha, hb]
              simp only [hf, hp]
              by_cases q : a.kind = .plain
              · simp [q]
              · simp [q]
          · intro c hcn
            simp only [set, show c ≠ n by omega, if_false]
            exact hnone c (by omega)

/-! ### Properties -/

/-- **Wrappers are transparent.**  With single inheritance a call of the public method of any class runs
the public method of the source nearest in the hierarchy, as if there were no wrappers.  Its
documentation is that of the nearest class with the public method or a documented private method, its
signature the one specified. -/
theorem wrappers_transparent {anc : Nat → List Nat} (hs : Single anc) (defs : Nat → Def) (n : Nat)
    (w : World) (h : build anc defs n = some w) (c : Nat) (hc : c < n) (k : Nat) :
    run anc w (k + 1) (c :: anc c) = nearestPub defs (c :: anc c) ∧
    ((look w (c :: anc c)).bind fun x => x.2.doc) = docSpec defs (c :: anc c) ∧
    (look w (c :: anc c)).map (fun x => x.2.sig) = sigSpec defs (c :: anc c) := by
  have g := (good_build hs defs n w h).1 c hc
  refine ⟨?_, g.doc, g.sig⟩
  rw [← g.fn, run]
  cases hl : look w (c :: anc c) with
  | none => rfl
  | some x =>
    obtain ⟨d, a⟩ := x
    obtain ⟨_, _, h3, _⟩ := g.kinds d a hl
    cases hk : a.kind with
    | plain => simp [hk]
    | direct => simp [hk]
    | viaSuper =>
      obtain ⟨e, b, h1, h2, h4⟩ := h3 hk
      simp only [hk, Option.map_some]
      rw [run, h1]
      simp [h2, h4]

/-- **Which class statements fail.**  A class that defines the private method must define the public
method or inherit it: otherwise its creation raises an `AttributeError`.  No other class statement
fails. -/
theorem build_fails_iff {anc : Nat → List Nat} (hs : Single anc) (defs : Nat → Def) (n : Nat) :
    build anc defs n = none ↔
      ∃ c < n, (defs c).priv ≠ none ∧ nearestPub defs (c :: anc c) = none := by
  induction n with
  | zero => simp [build]
  | succ n ih =>
    cases hb : build anc defs n with
    | none =>
      obtain ⟨c, hc, q⟩ := ih.1 hb
      simp only [build, hb, Option.bind_none, true_iff]
      exact ⟨c, by omega, q⟩
    | some v =>
      have no : ¬ ∃ c < n, (defs c).priv ≠ none ∧ nearestPub defs (c :: anc c) = none := by
        intro q; rw [ih.2 q] at hb; simp at hb
      have ganc : Good anc defs v (anc n) := by
        cases hn : anc n with
        | nil => exact good_nil _ _ _
        | cons e l =>
          obtain ⟨h1, h2⟩ := hs n e l hn
          rw [h2]; exact (good_build hs defs n v hb).1 e h1
      have key : create anc v n (defs n) = none ↔
          (defs n).priv ≠ none ∧ nearestPub defs (n :: anc n) = none := by
        have e1 : nearestPub defs (n :: anc n) = none ↔
            (defs n).pub = none ∧ nearestPub defs (anc n) = none := by
          simp [nearestPub]
        rw [e1, ← ganc.fn]
        simp only [create]
        cases (defs n).pub with
        | some f => simp
        | none =>
          cases (defs n).priv with
          | none => simp
          | some p =>
            cases look v (anc n) with
            | none => simp
            | some x => simp
      simp only [build, hb, Option.bind_some, key]
      constructor
      · intro q; exact ⟨n, by omega, q⟩
      · rintro ⟨c, hc, q⟩
        by_cases hcn : c = n
        · subst hcn; exact q
        · exact absurd ⟨c, by omega, q⟩ no

/-! ### Extensions -/

/-- Activating an extension that has the public method for class `r`: `setattr(r, name, function)`
(`mdp/extension.py`, `activate_extension`). -/
def extend (w : World) (r : Nat) (f : Fn) : World := set w r (plain f)

theorem look_skip (w : World) (ps : List Nat) (h : ∀ p ∈ ps, w p = none) (l : List Nat) :
    look w (ps ++ l) = look w l := by
  induction ps with
  | nil => rfl
  | cons p ps ih =>
    rw [List.cons_append, look_cons, h p (by simp)]
    exact ih (fun q hq => h q (by simp [hq]))

theorem good_at {anc : Nat → List Nat} {defs : Nat → Def} {w : World} {c : Nat}
    (g : Good anc defs w (c :: anc c)) (hpub : (defs c).pub = none) :
    ((defs c).priv = none → w c = none) ∧
    (∀ a, w c = some a → a.kind ≠ .plain) := by
  constructor
  · intro hp
    cases hw : w c with
    | none => rfl
    | some a =>
      have hl : look w (c :: anc c) = some (c, a) := by rw [look_cons, hw]
      obtain ⟨h1, h2, _⟩ := g.kinds c a hl
      by_cases q : a.kind = .plain
      · have := h1 q; rw [hpub] at this; simp at this
      · exact absurd hp (h2 q).2
  · intro a hw q
    have hl : look w (c :: anc c) = some (c, a) := by rw [look_cons, hw]
    have := (g.kinds c a hl).1 q
    rw [hpub] at this; simp at this

/-- The parts common to the two theorems below. -/
theorem below {anc : Nat → List Nat} (hs : Single anc) (c : Nat) :
    (∀ (xs : List Nat) (d : Nat) (m : List Nat), c :: anc c = xs ++ d :: m → m = anc d) ∧
    (∀ (xs : List Nat) (r : Nat) (l : List Nat), c :: anc c = xs ++ r :: l → ∀ d ∈ xs, d ≠ r) := by
  have suffix : ∀ (xs : List Nat) (d : Nat) (m : List Nat), c :: anc c = xs ++ d :: m → m = anc d := by
    intro xs
    induction xs using List.reverseRecOn with
    | nil => intro d m e; simp at e; rw [← e.1]; exact e.2.symm
    | append_singleton xs x ih =>
      intro d m e
      have := ih x (d :: m) (by simpa using e)
      exact (hs x d m this.symm).2
  refine ⟨suffix, ?_⟩
  intro xs r l hm d hd
  obtain ⟨as, bs, e⟩ := List.append_of_mem hd
  have h1 := suffix as d (bs ++ r :: l) (by rw [hm, e]; simp)
  have := anc_lt hs d r (by rw [← h1]; simp)
  omega

/-- The attribute of a class with the public method is the function of the source. -/
theorem attr_of_pub {anc : Nat → List Nat} {defs : Nat → Def} {w : World} {c : Nat}
    (g : Good anc defs w (c :: anc c)) (f : Fn) (hf : (defs c).pub = some f)
    (hw : w c ≠ none) : ∃ a, w c = some a ∧ a.kind = .plain ∧ a.fn = f := by
  cases hc : w c with
  | none => exact absurd hc hw
  | some a =>
    have hl : look w (c :: anc c) = some (c, a) := by rw [look_cons, hc]
    obtain ⟨h1, h2, _⟩ := g.kinds c a hl
    by_cases q : a.kind = .plain
    · have := h1 q
      rw [hf] at this
      exact ⟨a, rfl, q, (Option.some.inj this).symm⟩
    · have := (h2 q).1
      rw [hf] at this; simp at this

theorem pub_set {anc : Nat → List Nat} (defs : Nat → Def) (n : Nat) (w : World)
    (h : build anc defs n = some w) (c : Nat) (hc : c < n)
    (hp : (defs c).pub ≠ none ∨ (defs c).priv ≠ none) : w c ≠ none := by
  induction n generalizing w with
  | zero => omega
  | succ n ih =>
    simp only [build] at h
    obtain ⟨v, hv, hcr⟩ := Option.bind_eq_some_iff.1 h
    simp only [create] at hcr
    by_cases q : c = n
    · subst q
      split at hcr
      · simp only [Option.some.injEq] at hcr
        subst hcr; simp [set]
      · rename_i h1
        split at hcr
        · rename_i h2; simp [h1, h2] at hp
        · split at hcr
          · simp at hcr
          · simp only [Option.some.injEq] at hcr
            subst hcr; simp [set]
    · have old := ih v hv (by omega)
      split at hcr
      · simp only [Option.some.injEq] at hcr
        subst hcr; simpa [set, q] using old
      · split at hcr
        · simp only [Option.some.injEq] at hcr
          subst hcr; exact old
        · split at hcr
          · simp at hcr
          · simp only [Option.some.injEq] at hcr
            subst hcr; simpa [set, q] using old

/-- **Extensions of a public method, the case that works.**  An extension of the public method of class
`r` is used by the classes below `r` whose private method is inherited from `r`, or defined in one
class `q` below `r`. -/
theorem extension_effective_partial {anc : Nat → List Nat} (hs : Single anc) (defs : Nat → Def)
    (n : Nat) (w : World) (h : build anc defs n = some w) (c : Nat) (hc : c < n)
    (ps : List Nat) (q : Nat) (qs : List Nat) (r : Nat) (l : List Nat)
    (hm : c :: anc c = ps ++ q :: (qs ++ r :: l))
    (hpub : ∀ d ∈ ps ++ q :: qs, (defs d).pub = none)
    (hpriv : ∀ d ∈ ps ++ qs, (defs d).priv = none)
    (hr : (defs r).pub ≠ none) (f : Fn) (k : Nat) :
    run anc (extend w r f) (k + 1) (c :: anc c) = some f := by
  obtain ⟨g, _⟩ := good_build hs defs n w h
  obtain ⟨suffix, ne⟩ := below hs c
  have hlt : ∀ d ∈ c :: anc c, d < n := by
    intro d hd
    rcases List.mem_cons.1 hd with e | e
    · omega
    · exact Nat.lt_trans (anc_lt hs c d e) hc
  have allgood : ∀ d ∈ c :: anc c, Good anc defs w (d :: anc d) := fun d hd => g d (hlt d hd)
  have neR : ∀ d ∈ ps ++ q :: qs, d ≠ r := ne (ps ++ q :: qs) r l (by rw [hm]; simp)
  have same : ∀ d ∈ ps ++ q :: qs, extend w r f d = w d := by
    intro d hd; simp [extend, set, neR d hd]
  have isNone : ∀ d ∈ ps ++ qs, w d = none := by
    intro d hd
    have hd' : d ∈ ps ++ q :: qs := by
      rcases List.mem_append.1 hd with e | e <;> simp [e]
    refine (good_at (allgood d ?_) (hpub d hd')).1 (hpriv d hd)
    rw [hm]; rcases List.mem_append.1 hd with e | e <;> simp [e]
  have nonePs : ∀ d ∈ ps, extend w r f d = none := by
    intro d hd; rw [same d (by simp [hd])]; exact isNone d (by simp [hd])
  have noneQs : ∀ d ∈ qs, extend w r f d = none := by
    intro d hd; rw [same d (by simp [hd])]; exact isNone d (by simp [hd])
  have atR : look (extend w r f) (qs ++ r :: l) = some (r, plain f) := by
    rw [look_skip _ _ noneQs, look_cons]; simp [extend, set]
  have hqm : q ∈ c :: anc c := by rw [hm]; simp
  have hrm : r ∈ c :: anc c := by rw [hm]; simp
  have hanc : qs ++ r :: l = anc q := suffix ps q _ hm
  rw [run, hm, look_skip _ _ nonePs, look_cons, same q (by simp)]
  cases hw : w q with
  | none => simp only; rw [atR]; simp [plain]
  | some a =>
    simp only
    have hkind := (good_at (allgood q hqm) (hpub q (by simp))).2 a hw
    cases hk : a.kind with
    | plain => exact absurd hk hkind
    | viaSuper =>
      simp only
      rw [run, ← hanc, atR]
      simp [plain]
    | direct =>
      exfalso
      have hl : look w (q :: anc q) = some (q, a) := by rw [look_cons, hw]
      obtain ⟨e', b, h1, h2, _⟩ := ((allgood q hqm).kinds q a hl).2.2.2 hk
      obtain ⟨f0, hf0⟩ := Option.ne_none_iff_exists'.1 hr
      obtain ⟨b', h3, h4, _⟩ := attr_of_pub (allgood r hrm) f0 hf0
        (pub_set defs n w h r (hlt r hrm) (Or.inl hr))
      rw [← hanc, look_skip _ _ (fun d hd => isNone d (by simp [hd])), look_cons, h3] at h1
      simp only [Option.some.injEq, Prod.mk.injEq] at h1
      rw [← h1.2] at h2
      exact h2 h4

/-- **Extensions of a public method are bypassed.**  If the private method is defined in two classes
below `r` (as `_execute` in `TimeFramesNode` and in `TimeDelayNode`), the public method of the lower one
calls the original method of `r` even while an extension (such as the cache of `execute`) is active. -/
theorem extension_bypassed_violation {anc : Nat → List Nat} (hs : Single anc) (defs : Nat → Def)
    (n : Nat) (w : World) (h : build anc defs n = some w) (c : Nat) (hc : c < n)
    (ps : List Nat) (q : Nat) (qs : List Nat) (r : Nat) (l : List Nat)
    (hm : c :: anc c = ps ++ q :: (qs ++ r :: l))
    (hpub : ∀ d ∈ ps ++ q :: qs, (defs d).pub = none)
    (hpriv : ∀ d ∈ ps, (defs d).priv = none) (hq : (defs q).priv ≠ none)
    (q' : Nat) (hq' : q' ∈ qs) (hq'' : (defs q').priv ≠ none)
    (f0 : Fn) (hr : (defs r).pub = some f0) (f : Fn) (k : Nat) :
    run anc (extend w r f) k (c :: anc c) = some f0 := by
  obtain ⟨g, _⟩ := good_build hs defs n w h
  obtain ⟨suffix, ne⟩ := below hs c
  have hlt : ∀ d ∈ c :: anc c, d < n := by
    intro d hd
    rcases List.mem_cons.1 hd with e | e
    · omega
    · exact Nat.lt_trans (anc_lt hs c d e) hc
  have allgood : ∀ d ∈ c :: anc c, Good anc defs w (d :: anc d) := fun d hd => g d (hlt d hd)
  have neR : ∀ d ∈ ps ++ q :: qs, d ≠ r := ne (ps ++ q :: qs) r l (by rw [hm]; simp)
  have same : ∀ d ∈ ps ++ q :: qs, extend w r f d = w d := by
    intro d hd; simp [extend, set, neR d hd]
  have nonePs : ∀ d ∈ ps, extend w r f d = none := by
    intro d hd
    rw [same d (by simp [hd])]
    exact (good_at (allgood d (by rw [hm]; simp [hd])) (hpub d (by simp [hd]))).1 (hpriv d hd)
  have hqm : q ∈ c :: anc c := by rw [hm]; simp
  have hanc : qs ++ r :: l = anc q := suffix ps q _ hm
  rw [run, hm, look_skip _ _ nonePs, look_cons, same q (by simp)]
  cases hw : w q with
  | none => exact absurd hw (pub_set defs n w h q (hlt q hqm) (Or.inr hq))
  | some a =>
    simp only
    have hl : look w (q :: anc q) = some (q, a) := by rw [look_cons, hw]
    have hfn : a.fn = f0 := by
      have h1 := (allgood q hqm).fn
      rw [hl, ← hanc] at h1
      have h2 : nearestPub defs (q :: (qs ++ r :: l)) = some f0 := by
        have : ∀ xs : List Nat, (∀ d ∈ xs, (defs d).pub = none) →
            nearestPub defs (xs ++ r :: l) = some f0 := by
          intro xs hx
          induction xs with
          | nil => simp [nearestPub, hr]
          | cons x xs ih =>
            have := ih (fun d hd => hx d (by simp [hd]))
            simp only [nearestPub, List.cons_append, List.findSome?_cons, hx x (by simp)] at this ⊢
            exact this
        exact this (q :: qs) (fun d hd => hpub d (by
          rcases List.mem_cons.1 hd with e | e <;> simp [e]))
      rw [h2] at h1
      exact Option.some.inj h1
    have hkind := (good_at (allgood q hqm) (hpub q (by simp))).2 a hw
    cases hk : a.kind with
    | plain => exact absurd hk hkind
    | direct => simp [hfn]
    | viaSuper =>
      exfalso
      obtain ⟨e', b, h1, h2, _⟩ := ((allgood q hqm).kinds q a hl).2.2.1 hk
      rw [← hanc] at h1
      -- a class between `q` and `r` has a wrapper
      have : ∀ xs : List Nat, (∀ d ∈ xs, d ∈ qs) → q' ∈ xs → ∀ e b,
          look w (xs ++ r :: l) = some (e, b) → b.kind ≠ .plain := by
        intro xs
        induction xs with
        | nil => intro _ hx; simp at hx
        | cons x xs ih =>
          intro hsub hx e b hlk
          have hxq : x ∈ qs := hsub x (by simp)
          have hxm : x ∈ c :: anc c := by rw [hm]; simp [hxq]
          rw [List.cons_append, look_cons] at hlk
          cases hwx : w x with
          | none =>
            rw [hwx] at hlk
            rcases List.mem_cons.1 hx with e1 | e1
            · subst e1
              exact absurd hwx (pub_set defs n w h _ (hlt _ hxm) (Or.inr hq''))
            · exact ih (fun d hd => hsub d (by simp [hd])) e1 e b hlk
          | some b' =>
            rw [hwx] at hlk
            simp only [Option.some.injEq, Prod.mk.injEq] at hlk
            rw [← hlk.2]
            exact (good_at (allgood x hxm) (hpub x (by simp [hxq]))).2 b' hwx
      exact this qs (fun _ hd => hd) hq' e' b h1 h2

/-! ### Multiple inheritance -/

/-- The public method of a mixin that stands between a wrapped class and the class its wrapper was made
for is skipped: `class B(A, M)` where `A` (class 1) defines `_execute`, `M` (class 2) defines `execute`:
Python's order of search is `B, A, M, Node`, yet the wrapper of `A` calls the method of `Node`. -/
theorem mixin_skipped_violation (f g p : Fn) (hne : f ≠ g) :
    let anc : Nat → List Nat := fun c =>
      if c = 1 then [0] else if c = 2 then [0] else if c = 3 then [1, 2, 0] else []
    let defs : Nat → Def := fun c =>
      if c = 0 then ⟨some f, some p⟩ else if c = 1 then ⟨none, some p⟩
      else if c = 2 then ⟨some g, none⟩ else ⟨none, none⟩
    ∃ w, build anc defs 4 = some w ∧ nearestPub defs [3, 1, 2, 0] = some g ∧
      run anc w 4 [3, 1, 2, 0] = some f ∧ f ≠ g := by
  intro anc defs
  refine ⟨_, rfl, rfl, rfl, hne⟩

/-! ### Examples -/

/-- `Node`, `TimeFramesNode`, `TimeDelayNode`, and a class that inherits from the last one. -/
def exAnc : Nat → List Nat := fun c => (List.range c).reverse

def exDefs : Nat → Def := fun c =>
  if c = 0 then ⟨some ⟨0, some 100, 0, true⟩, some ⟨1, none, 1, true⟩⟩
  else if c = 1 then ⟨none, some ⟨2, some 101, 2, false⟩⟩
  else if c = 2 then ⟨none, some ⟨3, none, 3, false⟩⟩
  else ⟨none, none⟩

theorem exAnc_single : Single exAnc := by
  intro c d l h
  cases c with
  | zero => simp [exAnc] at h
  | succ c =>
    simp only [exAnc, List.range_succ, List.reverse_append, List.reverse_cons, List.reverse_nil,
      List.nil_append, List.cons_append, List.cons.injEq] at h
    obtain ⟨rfl, rfl⟩ := h
    exact ⟨by omega, rfl⟩

example : ((build exAnc exDefs 4).bind fun w => run exAnc w 1 (3 :: exAnc 3)).map (·.id) = some 0 := by
  decide +kernel
example : docSpec exDefs [3, 2, 1, 0] = some 101 ∧ sigSpec exDefs [3, 2, 1, 0] = some 3 := by
  decide +kernel
example : ((build exAnc exDefs 4).bind fun w =>
    run exAnc (extend w 0 ⟨9, none, 0, true⟩) 1 (1 :: exAnc 1)).map (·.id) = some 9 := by decide +kernel
example : ((build exAnc exDefs 4).bind fun w =>
    run exAnc (extend w 0 ⟨9, none, 0, true⟩) 1 (2 :: exAnc 2)).map (·.id) = some 0 := by decide +kernel
/-- A node with a private method `_label` that is no classifier cannot be defined. -/
example : (build exAnc (fun c => if c = 1 then ⟨none, some ⟨2, none, 2, false⟩⟩ else ⟨none, none⟩) 2).isNone
    := by decide +kernel

end Mdp.Meta
