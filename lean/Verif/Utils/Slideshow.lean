import Mathlib.Data.List.Basic
import Mathlib.Tactic.Common
import Mathlib.Tactic.Ring

/-!
# Slideshows

Models the slideshow pages of `mdp/utils/slideshow.py`: the choice and the checks of `image_slideshow` (695-717) and
of the constructors (52-79, 352-382, 539-561, 660-671), the links to the sections that the template writes (500-511),
and the program of the page (templates `template`, lines 85-180, `js_controls_template`, 232-257, `js_update_template`,
259-264 and 385-446, `js_loadslide_template`, 599-604) as functions on the state of the page. The other text of the
page is not modelled.

A page is in one state between two events; a script that ends with an error or does not end gives `none`. Arithmetic of
JavaScript is that of the integers (the numbers that occur are small), `NaN` is `none`. Names of sections are not None.
-/

namespace Mdp.Slideshow

variable {F A S : Type} [DecidableEq A] [DecidableEq S]

/-- What the templates are filled with. `str` is the `str` of the names of sections (line 375). -/
structure Page (F A S : Type) where
  files : List F
  secs : Option (List A)
  str : A → S
  loop : Bool
  delay : Option Int
  delta : Int

inductive Err
  | empty
  | mismatch
  deriving DecidableEq

/-- `image_slideshow` (lines 712-716) with the checks of `SectionImageHTMLSlideShow.__init__` (666-669) and
`ImageHTMLSlideShow.__init__` (553-554). -/
def imageSlideshow (files : List F) (secs : Option (List A)) (str : A → S) (loop : Bool) (delay : Option Int)
    (delta : Int) : Except Err (Page F A S) :=
  match secs with
  | some (x :: l) =>
    if (x :: l).length ≠ files.length then .error .mismatch
    else if files.length = 0 then .error .empty
    else .ok ⟨files, some (x :: l), str, loop, delay, delta⟩
  | _ => if files.length = 0 then .error .empty else .ok ⟨files, none, str, loop, delay, delta⟩

/-- The loop that writes the links to the sections (lines 500-511): name and slide of each. -/
def linkLoop : List A → Nat → Option A → Option (A × Nat) → List (A × Nat)
  | [], _, _, link => link.toList
  | x :: l, i, last, link =>
    if some x ≠ last then (if 0 < i then link.toList else []) ++ linkLoop l (i + 1) (some x) (some (x, i))
    else linkLoop l (i + 1) last link

/-- All links. -/
def links (l : List A) : List (A × Nat) := linkLoop l 0 none none

/-- `only_one_section` (lines 366-373). -/
def onlyOne : List A → Bool
  | [] => true
  | x :: l => (x :: l).all (· = x)

/-- The state of the page: `current_slide`, `slideselect.selectedIndex`, the slide that is shown, whether the value of
the start button is "Stop", `show_delay`, the number of pending timeouts, `current_section_id`, and for each link to a
section whether its class is "active_section". -/
structure St (F S : Type) where
  cur : Int
  sel : Int
  shown : Option F
  running : Bool
  delay : Option Int
  timers : Nat
  sec : Option S
  active : List Bool

/-- `a[i]` of JavaScript (`none`: undefined). -/
def jsGet {B : Type} (l : List B) (i : Int) : Option B := if 0 ≤ i then l[i.toNat]? else none

/-- `document.getElementById(id).className = …` for the ids of the links; an error if there is none. -/
def setClass (ids : List S) (id : S) (v : Bool) (a : List Bool) : Option (List Bool) :=
  if id ∈ ids then some (a.set (ids.idxOf id) v) else none

/-- `loadSlide` (lines 600-603): the entry of the menu is shown. -/
def loadSlide (p : Page F A S) (s : St F S) : Option (St F S) :=
  (jsGet p.files s.cur).map fun f => { s with shown := some f }

/-- The ids of the links (line 509). -/
def linkIds (p : Page F A S) (l : List A) : List S := (links l).map fun x => p.str x.1

/-- `updateSlide` (lines 260-263; with sections 391-399). -/
def update (p : Page F A S) (s : St F S) : Option (St F S) :=
  match p.secs with
  | none => loadSlide p { s with sel := s.cur }
  | some l =>
    s.sec.bind fun o => (setClass (linkIds p l) o false s.active).bind fun a =>
      (jsGet l s.cur).bind fun x => (setClass (linkIds p l) (p.str x) true a).bind fun b =>
        loadSlide p { s with active := b, sec := some (p.str x), sel := s.cur }

/-- The script of the page and `onLoad` (lines 88-105, 386-389, 607-623). The browser has selected entry `i` of
the menu. `None` for the delay gives `var show_delay = None`, which is an error. -/
def load (p : Page F A S) (i : Nat) : Option (St F S) :=
  p.delay.bind fun d => update p
    { cur := i, sel := i, shown := none, running := false, delay := some d, timers := 0,
      sec := p.secs.bind fun l => l.head?.map p.str,
      active := List.replicate ((p.secs.map fun l => (links l).length).getD 0) false }

/-- `first` (lines 132-135). -/
def first (p : Page F A S) (s : St F S) : Option (St F S) := update p { s with cur := 0 }

/-- `last` (lines 137-140). -/
def last (p : Page F A S) (s : St F S) : Option (St F S) := update p { s with cur := p.files.length - 1 }

/-- `next` (lines 112-120). -/
def next (p : Page F A S) (s : St F S) : Option (St F S) :=
  if (jsGet p.files (s.cur + 1)).isSome then update p { s with cur := s.cur + 1 }
  else if p.loop then first p s else some s

/-- `previous` (lines 122-130). -/
def previous (p : Page F A S) (s : St F S) : Option (St F S) :=
  if s.cur - 1 ≥ 0 then update p { s with cur := s.cur - 1 }
  else if p.loop then last p s else some s

/-- `onSelectorChange` (lines 107-110), after the entry `i` of the menu was selected. -/
def select (p : Page F A S) (i : Nat) (s : St F S) : Option (St F S) := update p { s with sel := i, cur := i }

/-- `showAuto` (lines 158-173). -/
def showAuto (p : Page F A S) (s : St F S) : Option (St F S) :=
  if s.running then
    (if s.cur = p.files.length - 1 then
      (if p.loop then update p { s with cur := 0 } else some { s with running := false })
    else update p { s with cur := s.cur + 1 }).map fun s => { s with timers := s.timers + 1 }
  else some s

/-- `startstop` (lines 143-155). -/
def startstop (p : Page F A S) (s : St F S) : Option (St F S) :=
  if s.running then some { s with running := false }
  else
    showAuto p { s with
      running := true
      cur := if !p.loop ∧ s.cur = p.files.length - 1 then -1 else s.cur }

/-- A timeout ends. -/
def tick (p : Page F A S) (s : St F S) : Option (St F S) :=
  if s.timers = 0 then some s else showAuto p { s with timers := s.timers - 1 }

/-- The first loop of `nextSection` (lines 435-441), with fuel. -/
def nextLoop (n : Int) (ids : List S) (c : Option S) : Nat → Int → Option Int
  | 0, _ => none
  | k + 1, i => if jsGet ids i = c then nextLoop n ids c k (if i + 1 < n then i + 1 else 0) else some i

/-- The first loop of `previousSection` (lines 412-418), with fuel. -/
def prevLoop (n : Int) (ids : List S) (c : Option S) : Nat → Int → Option Int
  | 0, _ => none
  | k + 1, i => if jsGet ids i = c then prevLoop n ids c k (if i > 0 then i - 1 else n - 1) else some i

/-- The second loop of `previousSection` (lines 419-426), with fuel. -/
def backLoop (ids : List S) (c : Option S) : Nat → Int → Option Int
  | 0, _ => none
  | k + 1, i => if c = jsGet ids i then (if i - 1 < 0 then some (i - 1) else backLoop ids c k (i - 1)) else some i

/-- `nextSection` (lines 431-443). -/
def nextSection (k : Nat) (p : Page F A S) (s : St F S) : Option (St F S) :=
  match p.secs with
  | none => some s
  | some l =>
    if onlyOne l then some s
    else (nextLoop p.files.length (l.map p.str) s.sec k s.cur).bind fun i => update p { s with cur := i }

/-- `previousSection` (lines 408-429). -/
def previousSection (k : Nat) (p : Page F A S) (s : St F S) : Option (St F S) :=
  match p.secs with
  | none => some s
  | some l =>
    if onlyOne l then some s
    else (prevLoop p.files.length (l.map p.str) s.sec k s.cur).bind fun i =>
      (backLoop (l.map p.str) (jsGet (l.map p.str) i) k i).bind fun j => update p { s with cur := j + 1 }

/-- A link to a section was clicked: `setSlide` (lines 403-406) with the slide of the link. -/
def clickLink (p : Page F A S) (m : Nat) (s : St F S) : Option (St F S) :=
  match p.secs with
  | none => some s
  | some l => match (links l)[m]? with
    | none => some s
    | some x => update p { s with cur := x.2 }

/-- `slower` (lines 236-239). -/
def slower (p : Page F A S) (s : St F S) : St F S := { s with delay := s.delay.map (· + p.delta) }

/-- `faster` (lines 241-247). -/
def faster (p : Page F A S) (s : St F S) : St F S :=
  { s with delay := s.delay.map fun d => if d - p.delta < 0 then 0 else d - p.delta }

/-- `changeDelay` (lines 249-256); `t` is the result of `parseInt`. -/
def changeDelay (t : Option Int) (s : St F S) : St F S :=
  { s with delay := t.map fun d => if d < 0 then 0 else d }

/-- What can happen on the page. -/
inductive Op
  | first
  | last
  | next
  | previous
  | select (i : Nat)
  | startstop
  | tick
  | nextSection
  | previousSection
  | clickLink (m : Nat)
  | slower
  | faster
  | changeDelay (t : Option Int)

/-- The reaction of the page (the buttons, lines 307-321 and 473-491). Only existing entries can be selected. -/
def step (k : Nat) (p : Page F A S) : Op → St F S → Option (St F S)
  | .first, s => first p s
  | .last, s => last p s
  | .next, s => next p s
  | .previous, s => previous p s
  | .select i, s => if i < p.files.length then select p i s else some s
  | .startstop, s => startstop p s
  | .tick, s => tick p s
  | .nextSection, s => nextSection k p s
  | .previousSection, s => previousSection k p s
  | .clickLink m, s => clickLink p m s
  | .slower, s => some (slower p s)
  | .faster, s => some (faster p s)
  | .changeDelay t, s => some (changeDelay t s)

/-- A sequence of events. -/
def run (k : Nat) (p : Page F A S) : List Op → St F S → Option (St F S)
  | [], s => some s
  | o :: l, s => (step k p o s).bind (run k p l)

/-! ## Specification -/

/-- The page shows slide `i`, which is also selected in the menu; of the links to sections exactly one is highlighted,
the first one with the name of the section of this slide. -/
structure Shows (p : Page F A S) (s : St F S) (i : Nat) : Prop where
  cur : s.cur = i
  sel : s.sel = i
  shown : ∃ f, p.files[i]? = some f ∧ s.shown = some f
  sec : ∀ l, p.secs = some l → ∃ x m, l[i]? = some x ∧ s.sec = some (p.str x) ∧
    ((links l).map fun y => p.str y.1)[m]? = some (p.str x) ∧
    (∀ m' < m, ((links l).map fun y => p.str y.1)[m']? ≠ some (p.str x)) ∧
    s.active = (List.replicate (links l).length false).set m true

/-- The slides of a page: at least one; as many names of sections; different names have different texts. -/
structure Good (p : Page F A S) : Prop where
  pos : 0 < p.files.length
  len : ∀ l, p.secs = some l → l.length = p.files.length
  inj : ∀ l, p.secs = some l → ∀ x ∈ l, ∀ y ∈ l, p.str x = p.str y → x = y

/-! ## Helper lemmas -/

theorem jsGet_nat {B : Type} (l : List B) (i : Nat) : jsGet l (i : Int) = l[i]? := by
  simp [jsGet]

theorem mem_linkLoop (x : A) : ∀ (l : List A) (i : Nat) (last : Option A) (link : Option (A × Nat)),
    last = link.map Prod.fst → (i = 0 → link = none) → (x ∈ l ∨ last = some x) →
    x ∈ (linkLoop l i last link).map Prod.fst
  | [], i, last, link, h, h0, hx => by
    rcases hx with hx | hx
    · simp at hx
    · subst h
      cases link with
      | none => simp at hx
      | some y => simp at hx; simp [linkLoop, hx]
  | y :: l, i, last, link, h, h0, hx => by
    unfold linkLoop
    split
    · next hy =>
      rw [List.map_append, List.mem_append]
      by_cases hl : last = some x
      · left
        subst h
        cases link with
        | none => simp at hl
        | some z =>
          have hi : 0 < i := by
            rcases Nat.eq_zero_or_pos i with hi | hi
            · exact absurd (h0 hi) (by simp)
            · exact hi
          simp only [Option.map_some, Option.some.injEq] at hl
          simp [hi, hl]
      · right
        refine mem_linkLoop x l (i + 1) (some y) (some (y, i)) rfl (by omega) ?_
        rcases hx with hx | hx
        · rcases List.mem_cons.1 hx with hx | hx
          · right; rw [hx]
          · left; exact hx
        · exact absurd hx hl
    · next hy =>
      have hy' : some y = last := not_not.1 hy
      refine mem_linkLoop x l (i + 1) last link h (by omega) ?_
      rcases hx with hx | hx
      · rcases List.mem_cons.1 hx with hx | hx
        · right; rw [hx, hy']
        · left; exact hx
      · right; exact hx

theorem mem_linkIds (p : Page F A S) (l : List A) (x : A) (h : x ∈ l) : p.str x ∈ linkIds p l := by
  have := mem_linkLoop x l 0 none none rfl (fun _ => rfl) (.inl h)
  obtain ⟨y, hy, he⟩ := List.mem_map.1 this
  exact List.mem_map.2 ⟨y, hy, by rw [he]⟩

/-- What holds between two events, but for the slide. -/
def Pre (p : Page F A S) (s : St F S) : Prop :=
  ∀ l, p.secs = some l → ∃ o, s.sec = some o ∧ o ∈ linkIds p l ∧
    (s.active = List.replicate (links l).length false ∨
      s.active = (List.replicate (links l).length false).set ((linkIds p l).idxOf o) true)

theorem idxOf_first (l : List S) (x : S) : ∀ m' < l.idxOf x, l[m']? ≠ some x := by
  intro m' hm he0
  obtain ⟨hl, he⟩ := List.getElem?_eq_some_iff.1 he0
  induction l generalizing m' with
  | nil => simp at hl
  | cons y l ih =>
    rw [List.idxOf_cons] at hm
    by_cases hy : y = x
    · simp [hy] at hm
    · have hb : (y == x) = false := by simp [hy]
      rw [hb] at hm
      simp only [cond_false] at hm
      cases m' with
      | zero => exact hy (by simpa using he)
      | succ m' => exact ih m' (by omega) (by simpa using he0) (by simpa using hl) (by simpa using he)

theorem Shows.pre {p : Page F A S} {s : St F S} {i : Nat} (h : Shows p s i) : Pre p s := by
  intro l hl
  obtain ⟨x, m, hx, hs, hm, hf, ha⟩ := h.sec l hl
  have hmem : p.str x ∈ linkIds p l := List.mem_iff_getElem?.2 ⟨m, hm⟩
  refine ⟨_, hs, hmem, .inr ?_⟩
  have hidx : (linkIds p l).idxOf (p.str x) = m := by
    rcases Nat.lt_trichotomy ((linkIds p l).idxOf (p.str x)) m with h | h | h
    · exact absurd (List.getElem?_idxOf hmem) (hf _ h)
    · exact h
    · exact absurd hm (idxOf_first _ _ _ h)
  rw [hidx, ha]

/-- `updateSlide` works whenever `current_slide` is a slide. -/
theorem update_shows (p : Page F A S) (hp : Good p) (s : St F S) (hs : Pre p s) (i : Nat) (hi : s.cur = i)
    (hn : i < p.files.length) :
    ∃ s', update p s = some s' ∧ Shows p s' i ∧ s'.running = s.running ∧ s'.timers = s.timers ∧
      s'.delay = s.delay := by
  have hf : p.files[i]? = some p.files[i] := List.getElem?_eq_getElem hn
  unfold update
  cases hl : p.secs with
  | none =>
    refine ⟨{ s with sel := s.cur, shown := some p.files[i] },
      by simp only [loadSlide, hi, jsGet_nat, hf, Option.map_some], ⟨hi, hi, ⟨_, hf, rfl⟩, ?_⟩, rfl, rfl, rfl⟩
    intro l h; rw [hl] at h; simp at h
  | some l =>
    obtain ⟨o, ho, hmem, ha⟩ := hs l hl
    have hil : i < l.length := by rw [hp.len l hl]; exact hn
    have hx : l[i]? = some l[i] := List.getElem?_eq_getElem hil
    have hxm : p.str l[i] ∈ linkIds p l := mem_linkIds p l _ (List.getElem_mem hil)
    have hr : s.active.set ((linkIds p l).idxOf o) false = List.replicate (links l).length false := by
      rcases ha with ha | ha <;> rw [ha]
      · simp [List.set_replicate_self]
      · rw [List.set_set]; simp [List.set_replicate_self]
    have e1 : setClass (linkIds p l) o false s.active = some (List.replicate (links l).length false) := by
      rw [setClass, if_pos hmem, hr]
    have e2 : setClass (linkIds p l) (p.str l[i]) true (List.replicate (links l).length false) =
        some ((List.replicate (links l).length false).set ((linkIds p l).idxOf (p.str l[i])) true) := by
      rw [setClass, if_pos hxm]
    refine ⟨{ s with
        active := (List.replicate (links l).length false).set ((linkIds p l).idxOf (p.str l[i])) true
        sec := some (p.str l[i]), sel := s.cur, shown := some p.files[i] },
      by simp only [ho, Option.bind_some, e1, e2, hi, jsGet_nat, hx, loadSlide, hf, Option.map_some],
      ⟨hi, hi, ⟨_, hf, rfl⟩, ?_⟩, rfl, rfl, rfl⟩
    intro l' h
    rw [hl] at h
    obtain rfl : l = l' := Option.some.inj h
    exact ⟨_, _, hx, rfl, List.getElem?_idxOf hxm, idxOf_first _ _, rfl⟩

theorem mod2 (q n : Nat) (h : q < 2 * n) : q % n = if q < n then q else q - n := by
  split
  · next h1 => exact Nat.mod_eq_of_lt h1
  · next h1 =>
    rw [Nat.mod_eq_sub_mod (by omega)]
    exact Nat.mod_eq_of_lt (by omega)

theorem nextLoop_spec (n : Nat) (ids : List S) (c : Option S) (i m : Nat) (hi : i < n) (hm : m < n)
    (he : ids[(i + m) % n]? ≠ c) (ha : ∀ u < m, ids[(i + u) % n]? = c) :
    ∀ (k t : Nat), t ≤ m → m - t < k →
      nextLoop n ids c k ((i + t) % n : Nat) = some (((i + m) % n : Nat) : Int)
  | 0, t, _, hk => by omega
  | k + 1, t, ht, hk => by
    rw [nextLoop, jsGet_nat]
    by_cases h : t = m
    · rw [h, if_neg he]
    · rw [if_pos (ha t (by omega))]
      have e : (if (((i + t) % n : Nat) : Int) + 1 < n then (((i + t) % n : Nat) : Int) + 1 else 0) =
          (((i + (t + 1)) % n : Nat) : Int) := by
        rw [mod2 (i + t) n (by omega), mod2 (i + (t + 1)) n (by omega)]
        split_ifs <;> omega
      rw [e]
      exact nextLoop_spec n ids c i m hi hm he ha k (t + 1) (by omega) (by omega)

theorem prevLoop_spec (n : Nat) (ids : List S) (c : Option S) (i m : Nat) (hi : i < n) (hm : m < n)
    (he : ids[(i + n - m) % n]? ≠ c) (ha : ∀ u < m, ids[(i + n - u) % n]? = c) :
    ∀ (k t : Nat), t ≤ m → m - t < k →
      prevLoop n ids c k ((i + n - t) % n : Nat) = some (((i + n - m) % n : Nat) : Int)
  | 0, t, _, hk => by omega
  | k + 1, t, ht, hk => by
    rw [prevLoop, jsGet_nat]
    by_cases h : t = m
    · rw [h, if_neg he]
    · rw [if_pos (ha t (by omega))]
      have e : (if (((i + n - t) % n : Nat) : Int) > 0 then (((i + n - t) % n : Nat) : Int) - 1 else (n : Int) - 1) =
          (((i + n - (t + 1)) % n : Nat) : Int) := by
        rw [mod2 (i + n - t) n (by omega), mod2 (i + n - (t + 1)) n (by omega)]
        split_ifs <;> omega
      rw [e]
      exact prevLoop_spec n ids c i m hi hm he ha k (t + 1) (by omega) (by omega)

theorem backLoop_spec (ids : List S) (c : S) : ∀ (i k : Nat), i + 1 < k → ids[i]? = some c →
    ∃ st : Nat, backLoop ids (some c) k i = some ((st : Int) - 1) ∧ st ≤ i ∧
      (∀ t, st ≤ t → t ≤ i → ids[t]? = some c) ∧ (st = 0 ∨ ids[st - 1]? ≠ some c)
  | i, 0, hk, _ => by omega
  | 0, k + 1, _, hi => by
    refine ⟨0, ?_, le_refl _, fun t _ h => ?_, .inl rfl⟩
    · rw [backLoop, jsGet_nat, hi, if_pos rfl, if_pos (by decide)]
    · obtain rfl : t = 0 := by omega
      exact hi
  | i + 1, k + 1, hk, hi => by
    rw [backLoop, jsGet_nat, hi, if_pos rfl, if_neg (by omega)]
    have e : ((i + 1 : Nat) : Int) - 1 = (i : Int) := by omega
    rw [e]
    by_cases h : ids[i]? = some c
    · obtain ⟨st, h1, h2, h3, h4⟩ := backLoop_spec ids c i k (by omega) h
      refine ⟨st, h1, by omega, fun t ht hti => ?_, h4⟩
      by_cases hti' : t = i + 1
      · rw [hti']; exact hi
      · exact h3 t ht (by omega)
    · refine ⟨i + 1, ?_, le_refl _, fun t ht hti => ?_, .inr h⟩
      · cases k with
        | zero => omega
        | succ k =>
          rw [backLoop, jsGet_nat, if_neg (fun h' => h h'.symm)]
          congr 1; omega
      · obtain rfl : t = i + 1 := by omega
        exact hi

theorem not_onlyOne (l : List A) (h : onlyOne l = false) (x : A) : ∃ (j : Nat) (y : A), l[j]? = some y ∧ y ≠ x := by
  cases l with
  | nil => simp [onlyOne] at h
  | cons z l =>
    rw [onlyOne] at h
    by_cases hz : z = x
    · have : ¬ ∀ y ∈ z :: l, decide (y = z) = true := by
        rw [← List.all_eq_true]; simp [h]
      push_neg at this
      obtain ⟨y, hy, hne⟩ := this
      obtain ⟨j, hj⟩ := List.mem_iff_getElem?.1 hy
      exact ⟨j, y, hj, fun he => hne (by simp [he, hz])⟩
    · exact ⟨0, z, rfl, hz⟩

theorem exists_next (l : List A) (x : A) (i : Nat) (hi : l[i]? = some x) (h : onlyOne l = false) :
    ∃ m, 0 < m ∧ m < l.length ∧ l[(i + m) % l.length]? ≠ some x ∧ ∀ u < m, l[(i + u) % l.length]? = some x := by
  obtain ⟨j, y, hj, hy⟩ := not_onlyOne l h x
  have hil := (List.getElem?_eq_some_iff.1 hi).1
  have hjl := (List.getElem?_eq_some_iff.1 hj).1
  have hij : i ≠ j := by rintro rfl; rw [hi] at hj; exact hy (Option.some.inj hj).symm
  have hex : ∃ m, m < l.length ∧ l[(i + m) % l.length]? ≠ some x := by
    refine ⟨if i < j then j - i else j + l.length - i, by split_ifs <;> omega, ?_⟩
    have : (i + if i < j then j - i else j + l.length - i) % l.length = j := by
      rw [mod2 _ _ (by split_ifs <;> omega)]; split_ifs <;> omega
    rw [this, hj]; exact fun he => hy (Option.some.inj he)
  classical
  have hf := Nat.find_spec hex
  have hmin : ∀ u < Nat.find hex, l[(i + u) % l.length]? = some x := fun u hu => by
    have := Nat.find_min hex hu
    by_contra hne
    exact this ⟨by omega, hne⟩
  refine ⟨Nat.find hex, ?_, hf.1, hf.2, hmin⟩
  rcases Nat.eq_zero_or_pos (Nat.find hex) with h0 | h0
  · have := hf.2
    rw [h0, Nat.add_zero, Nat.mod_eq_of_lt hil] at this
    exact absurd hi this
  · exact h0

theorem exists_prev (l : List A) (x : A) (i : Nat) (hi : l[i]? = some x) (h : onlyOne l = false) :
    ∃ m, 0 < m ∧ m < l.length ∧ l[(i + l.length - m) % l.length]? ≠ some x ∧
      ∀ u < m, l[(i + l.length - u) % l.length]? = some x := by
  obtain ⟨j, y, hj, hy⟩ := not_onlyOne l h x
  have hil := (List.getElem?_eq_some_iff.1 hi).1
  have hjl := (List.getElem?_eq_some_iff.1 hj).1
  have hij : i ≠ j := by rintro rfl; rw [hi] at hj; exact hy (Option.some.inj hj).symm
  have hex : ∃ m, m < l.length ∧ l[(i + l.length - m) % l.length]? ≠ some x := by
    refine ⟨if j < i then i - j else i + l.length - j, by split_ifs <;> omega, ?_⟩
    have : (i + l.length - if j < i then i - j else i + l.length - j) % l.length = j := by
      rw [mod2 _ _ (by split_ifs <;> omega)]; split_ifs <;> omega
    rw [this, hj]; exact fun he => hy (Option.some.inj he)
  classical
  have hf := Nat.find_spec hex
  have hmin : ∀ u < Nat.find hex, l[(i + l.length - u) % l.length]? = some x := fun u hu => by
    have := Nat.find_min hex hu
    by_contra hne
    exact this ⟨by omega, hne⟩
  refine ⟨Nat.find hex, ?_, hf.1, hf.2, hmin⟩
  rcases Nat.eq_zero_or_pos (Nat.find hex) with h0 | h0
  · have := hf.2
    rw [h0, Nat.sub_zero, Nat.add_mod_right, Nat.mod_eq_of_lt hil] at this
    exact absurd hi this
  · exact h0

/-- Comparing the texts of names is comparing names. -/
theorem str_iff (p : Page F A S) (hp : Good p) (l : List A) (hl : p.secs = some l) (x : A) (hx : x ∈ l) (j : Nat) :
    (l.map p.str)[j]? = some (p.str x) ↔ l[j]? = some x := by
  rw [List.getElem?_map]
  constructor
  · intro h
    obtain ⟨y, hy, he⟩ := Option.map_eq_some_iff.1 h
    rw [hy, hp.inj l hl y (List.mem_iff_getElem?.2 ⟨j, hy⟩) x hx he]
  · intro h; rw [h]; rfl

theorem linkLoop_iff (x : A) (j : Nat) : ∀ (l : List A) (i : Nat) (last : Option A) (link : Option (A × Nat)),
    (i = 0 → link = none) → ((x, j) ∈ linkLoop l i last link ↔ link = some (x, j) ∨
      ∃ t, j = i + t ∧ l[t]? = some x ∧ (if t = 0 then last else l[t - 1]?) ≠ some x)
  | [], i, last, link, h0 => by
    cases link <;> simp [linkLoop, eq_comm]
  | y :: l, i, last, link, h0 => by
    have split : (∃ t, j = i + t ∧ (y :: l)[t]? = some x ∧ (if t = 0 then last else (y :: l)[t - 1]?) ≠ some x) ↔
        (j = i ∧ y = x ∧ last ≠ some x) ∨
        ∃ t, j = i + 1 + t ∧ l[t]? = some x ∧ (if t = 0 then some y else l[t - 1]?) ≠ some x := by
      constructor
      · rintro ⟨t, h1, h2, h3⟩
        cases t with
        | zero => exact .inl ⟨by simpa using h1, by simpa using h2, by simpa using h3⟩
        | succ t =>
          refine .inr ⟨t, by omega, by simpa using h2, ?_⟩
          cases t with
          | zero => simpa using h3
          | succ t => simpa using h3
      · rintro (⟨h1, h2, h3⟩ | ⟨t, h1, h2, h3⟩)
        · exact ⟨0, by simpa using h1, by simp [h2], by simpa using h3⟩
        · refine ⟨t + 1, by omega, by simpa using h2, ?_⟩
          cases t with
          | zero => simpa using h3
          | succ t => simpa using h3
    rw [split]
    unfold linkLoop
    split_ifs with h hi
    · rw [List.mem_append, linkLoop_iff x j l (i + 1) (some y) (some (y, i)) (by omega)]
      have hlast : (j = i ∧ y = x ∧ last ≠ some x) ↔ some (y, i) = some (x, j) := by
        constructor
        · rintro ⟨rfl, rfl, _⟩; rfl
        · intro he
          simp only [Option.some.injEq, Prod.mk.injEq] at he
          exact ⟨he.2.symm, he.1, fun hl => h (by rw [hl, he.1])⟩
      rw [hlast]
      have : (x, j) ∈ link.toList ↔ link = some (x, j) := by cases link <;> simp [eq_comm]
      rw [this]
    · rw [List.nil_append, linkLoop_iff x j l (i + 1) (some y) (some (y, i)) (by omega)]
      have hlast : (j = i ∧ y = x ∧ last ≠ some x) ↔ some (y, i) = some (x, j) := by
        constructor
        · rintro ⟨rfl, rfl, _⟩; rfl
        · intro he
          simp only [Option.some.injEq, Prod.mk.injEq] at he
          exact ⟨he.2.symm, he.1, fun hl => h (by rw [hl, he.1])⟩
      rw [hlast, h0 (by omega)]
      simp
    · rw [linkLoop_iff x j l (i + 1) last link (by omega)]
      have hy : some y = last := not_not.1 h
      have : ¬ (j = i ∧ y = x ∧ last ≠ some x) := by
        rintro ⟨_, rfl, h3⟩; exact h3 hy.symm
      rw [or_iff_right this, hy]

theorem linkLoop_sorted : ∀ (l : List A) (i : Nat) (last : Option A) (link : Option (A × Nat)),
    (∀ y, link = some y → y.2 < i) →
    (linkLoop l i last link).Pairwise (fun a b => a.2 < b.2) ∧
      ∀ z ∈ linkLoop l i last link, link = some z ∨ i ≤ z.2
  | [], i, last, link, h => by
    cases link <;> simp [linkLoop]
  | y :: l, i, last, link, h => by
    unfold linkLoop
    split_ifs with h1 h2
    · obtain ⟨ha, hb⟩ := linkLoop_sorted l (i + 1) (some y) (some (y, i)) (by intro z hz; cases hz; simp)
      have hc : ∀ z ∈ linkLoop l (i + 1) (some y) (some (y, i)), i ≤ z.2 := by
        intro z hz
        rcases hb z hz with h | h
        · cases h; exact le_refl _
        · omega
      constructor
      · rw [List.pairwise_append]
        refine ⟨by cases link <;> simp, ha, ?_⟩
        intro a ha' b hb'
        have : link = some a := by cases link <;> simp_all
        have := h a this
        have := hc b hb'
        omega
      · intro z hz
        rcases List.mem_append.1 hz with hz | hz
        · left; cases link <;> simp_all
        · right; exact hc z hz
    · obtain ⟨ha, hb⟩ := linkLoop_sorted l (i + 1) (some y) (some (y, i)) (by intro z hz; cases hz; simp)
      refine ⟨by simpa using ha, fun z hz => ?_⟩
      rcases hb z (by simpa using hz) with h | h
      · cases h; exact .inr (le_refl _)
      · right; omega
    · obtain ⟨ha, hb⟩ := linkLoop_sorted l (i + 1) last link (fun z hz => by have := h z hz; omega)
      refine ⟨ha, fun z hz => ?_⟩
      rcases hb z hz with h | h
      · exact .inl h
      · right; omega

end Mdp.Slideshow
