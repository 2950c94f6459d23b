import Verif.Parallel.BiFlow
import Verif.Parallel.FlowExecProps
import Verif.Bi.MsgJoin

/-!
# Parallel execution of a `BiFlow`

C201. Parallel execution is compared with `BiFlow.execute` (`Bi.execute'`), not with a specification of its own.
-/

namespace Bi.Par

open Py Bi.FlowNode

variable {σ A V : Type} [DecidableEq V]

/-! ### Specification -/

/-- States that `E` relates compute the same. -/
structure Respects (P : PFlow σ A V) (E : σ → σ → Prop) : Prop where
  refl : ∀ s, E s s
  symm : ∀ {s t}, E s t → E t s
  trans : ∀ {s t u}, E s t → E t u → E s u
  exec : ∀ j {s t} x m, E s t → (P.exec j s x m).1 = (P.exec j t x m).1 ∧ E (P.exec j s x m).2 (P.exec j t x m).2
  plain : ∀ j {s t} x, E s t → (P.plain j s x).1 = (P.plain j t x).1 ∧ E (P.plain j s x).2 (P.plain j t x).2
  reset : ∀ {s t}, E s t → E (P.reset s) (P.reset t)

/-- Flows whose chunks do not influence one another: up to a relation of states that compute the same (`E`), execution
changes only what a reset restores, a fork computes what the original computes, and joining a fork does not change what a
node computes. -/
structure Faithful (P : PFlow σ A V) (E : σ → σ → Prop) : Prop extends Respects P E where
  idem : ∀ s, E (P.reset (P.reset s)) (P.reset s)
  execBack : ∀ j s x m, E (P.reset (P.exec j s x m).2) (P.reset s)
  plainBack : ∀ j s x, E (P.reset (P.plain j s x).2) (P.reset s)
  fork : ∀ s, ∃ f, P.fork s = some f ∧ E (P.reset f) (P.reset s)
  join : ∀ s t, ∃ r, P.join s t = .ok r ∧ E (P.reset r) (P.reset s)
  shared : ∀ s t, E (P.reset t) (P.reset s) → E (P.reset (P.shared s t)) (P.reset s)

/-! ### States that compute the same -/

/-- Configurations that differ in the state only. -/
def RelCfg (E : σ → σ → Prop) (c d : Cfg σ A V) : Prop :=
  c.i = d.i ∧ c.x = d.x ∧ c.msg = d.msg ∧ c.seen = d.seen ∧ E c.s d.s

/-- The same for outcomes. -/
def RelOut (E : σ → σ → Prop) (o o' : Out σ A V) : Prop := o.res = o'.res ∧ o.seen = o'.seen ∧ E o.s o'.s

theorem runNode_rel {P : PFlow σ A V} {E : σ → σ → Prop} (hF : Respects P E) (j : Nat) {s t : σ} (x : Option A)
    (m : Option (Msg V)) (h : E s t) : (runNode P.toBFlow j s x m).1 = (runNode P.toBFlow j t x m).1 ∧
      E (runNode P.toBFlow j s x m).2 (runNode P.toBFlow j t x m).2 := by
  unfold runNode
  split
  · have := hF.exec j x m h
    generalize P.exec j s x m = q at this
    generalize P.exec j t x m = q' at this
    obtain ⟨q, s1⟩ := q
    obtain ⟨q', t1⟩ := q'
    obtain ⟨h1, h2⟩ := this
    simp only at h1 h2
    subst h1
    cases q with
    | error e => exact ⟨rfl, h2⟩
    | ok r => cases r <;> exact ⟨rfl, h2⟩
  · have := hF.plain j x h
    generalize P.plain j s x = q at this
    generalize P.plain j t x = q' at this
    obtain ⟨q, s1⟩ := q
    obtain ⟨q', t1⟩ := q'
    obtain ⟨h1, h2⟩ := this
    simp only at h1 h2
    subst h1
    cases q <;> exact ⟨rfl, h2⟩

/-- Both rounds go on, or both end. -/
def RelSum (E : σ → σ → Prop) : Cfg σ A V ⊕ Out σ A V → Cfg σ A V ⊕ Out σ A V → Prop
  | .inl c, .inl d => RelCfg E c d
  | .inr o, .inr o' => RelOut E o o'
  | _, _ => False

theorem afterNode_rel (F : BFlow σ A V) {E : σ → σ → Prop} (i : Int) (y : Option A) (m : Option (Msg V)) (t : BVal V)
    {s s' : σ} (seen : List Nat) (h : E s s') : RelSum E (afterNode F i y m t s seen) (afterNode F i y m t s' seen) := by
  unfold afterNode
  cases t with
  | int k =>
    simp only
    split
    · exact ⟨rfl, rfl, h⟩
    · split
      · exact ⟨rfl, rfl, h⟩
      · exact ⟨rfl, rfl, rfl, rfl, h⟩
  | none =>
    simp only
    cases targetToIndex F .none i with
    | error e => exact ⟨rfl, rfl, h⟩
    | ok q => cases q <;> first | exact ⟨rfl, rfl, h⟩ | exact ⟨rfl, rfl, rfl, rfl, h⟩
  | str u =>
    simp only
    cases targetToIndex F (.str u) i with
    | error e => exact ⟨rfl, rfl, h⟩
    | ok q => cases q <;> first | exact ⟨rfl, rfl, h⟩ | exact ⟨rfl, rfl, rfl, rfl, h⟩
  | other v =>
    simp only
    cases targetToIndex F (.other v) i with
    | error e => exact ⟨rfl, rfl, h⟩
    | ok q => cases q <;> first | exact ⟨rfl, rfl, h⟩ | exact ⟨rfl, rfl, rfl, rfl, h⟩

theorem seqStep_rel {P : PFlow σ A V} {E : σ → σ → Prop} (hF : Respects P E) (stop : Option Nat) {c d : Cfg σ A V}
    (h : RelCfg E c d) : RelSum E (seqStep P.toBFlow stop c) (seqStep P.toBFlow stop d) := by
  obtain ⟨ci, cx, cm, cs, cseen⟩ := c
  obtain ⟨di, dx, dm, ds, dseen⟩ := d
  obtain ⟨h1, h2, h3, h4, h5⟩ := h
  simp only at h1 h2 h3 h4 h5
  subst h1 h2 h3 h4
  unfold seqStep
  cases ci with
  | int i =>
    simp only
    split
    · exact ⟨rfl, rfl, h5⟩
    · cases pyIndex P.len i with
      | none => exact ⟨rfl, rfl, h5⟩
      | some j =>
        simp only
        have := runNode_rel hF j cx cm h5
        generalize runNode P.toBFlow j cs cx cm = q at this
        generalize runNode P.toBFlow j ds cx cm = q' at this
        obtain ⟨q, s1⟩ := q
        obtain ⟨q', t1⟩ := q'
        obtain ⟨g1, g2⟩ := this
        simp only at g1 g2
        subst g1
        cases q with
        | error e => exact ⟨rfl, rfl, g2⟩
        | ok q =>
          obtain ⟨y, m, t⟩ := q
          exact afterNode_rel _ i y m t _ g2
  | none => exact ⟨rfl, rfl, h5⟩
  | str u => exact ⟨rfl, rfl, h5⟩
  | other v => exact ⟨rfl, rfl, h5⟩

theorem runFuel_rel {P : PFlow σ A V} {E : σ → σ → Prop} (hF : Respects P E) (stop : Option Nat) :
    ∀ n {c d : Cfg σ A V} {o}, RelCfg E c d → runFuel (seqStep P.toBFlow stop) n c = some o →
      ∃ o', runFuel (seqStep P.toBFlow stop) n d = some o' ∧ RelOut E o o' := by
  intro n
  induction n with
  | zero => intro c d o _ h; cases h
  | succ n ih =>
    intro c d o h hr
    rw [runFuel] at hr ⊢
    have hs := seqStep_rel hF stop h
    generalize seqStep P.toBFlow stop c = z at hs hr
    generalize seqStep P.toBFlow stop d = z' at hs ⊢
    cases z with
    | inl c' =>
      cases z' with
      | inl d' => exact ih hs hr
      | inr o' => cases hs
    | inr o1 =>
      cases z' with
      | inl d' => cases hs
      | inr o' => cases hr; exact ⟨o', rfl, hs⟩

theorem seqStep_back {P : PFlow σ A V} {E : σ → σ → Prop} (hF : Faithful P E) (stop : Option Nat) (c : Cfg σ A V) :
    E (P.reset (endState (seqStep P.toBFlow stop c))) (P.reset c.s) := by
  unfold seqStep
  cases c.i with
  | int i =>
    simp only
    split
    · exact hF.refl _
    · cases pyIndex P.len i with
      | none => exact hF.refl _
      | some j =>
        simp only
        have : E (P.reset (runNode P.toBFlow j c.s c.x c.msg).2) (P.reset c.s) := by
          unfold runNode
          split
          · have := hF.execBack j c.s c.x c.msg
            generalize P.exec j c.s c.x c.msg = q at this
            obtain ⟨q, s'⟩ := q
            cases q with
            | error e => exact this
            | ok r => cases r <;> exact this
          · have := hF.plainBack j c.s c.x
            generalize P.plain j c.s c.x = q at this
            obtain ⟨q, s'⟩ := q
            cases q <;> exact this
        generalize runNode P.toBFlow j c.s c.x c.msg = q at this
        obtain ⟨q, s'⟩ := q
        cases q with
        | error e => exact this
        | ok q =>
          obtain ⟨y, m, t⟩ := q
          simp only
          rw [afterNode_state]
          exact this
  | none => exact hF.refl _
  | str u => exact hF.refl _
  | other v => exact hF.refl _

theorem runFuel_back {P : PFlow σ A V} {E : σ → σ → Prop} (hF : Faithful P E) (stop : Option Nat) :
    ∀ n (c : Cfg σ A V) o, runFuel (seqStep P.toBFlow stop) n c = some o → E (P.reset o.s) (P.reset c.s) := by
  intro n
  induction n with
  | zero => intro c o h; cases h
  | succ n ih =>
    intro c o hr
    rw [runFuel] at hr
    have hs := seqStep_back hF stop c
    generalize seqStep P.toBFlow stop c = z at hs hr
    cases z with
    | inl c' => exact hF.trans (ih c' o hr) hs
    | inr o' => cases hr; exact hs

theorem chunkRun_rel {P : PFlow σ A V} {E : σ → σ → Prop} (hF : Faithful P E) {n : Nat} {s t s' : σ} {k : Chunk A V}
    {y : Option A} {m : Option (Msg V)} (h : E s t) (hr : ChunkRun P.toBFlow n s k y m s') :
    ∃ t', ChunkRun P.toBFlow n t k y m t' ∧ E t' (P.reset t) := by
  obtain ⟨i, o, r, h1, h2, h3, h4, rfl⟩ := hr
  obtain ⟨o', g1, g2, _, g3⟩ := runFuel_rel hF.toRespects none n (c := { i := i, x := k.x, msg := k.msg, s := s })
    (d := { i := i, x := k.x, msg := k.msg, s := t }) ⟨rfl, rfl, rfl, rfl, h⟩ h2
  exact ⟨P.reset o'.s, ⟨i, o', r, h1, g1, by rw [← g2]; exact h3, h4, rfl⟩, runFuel_back hF none n _ o' g1⟩

theorem chunkRun_det {F : BFlow σ A V} {n : Nat} {s s' s'' : σ} {k : Chunk A V} {y y' : Option A}
    {m m' : Option (Msg V)} (h : ChunkRun F n s k y m s') (h' : ChunkRun F n s k y' m' s'') :
    y = y' ∧ m = m' ∧ s' = s'' := by
  obtain ⟨i, o, r, h1, h2, h3, h4, h5⟩ := h
  obtain ⟨i', o', r', g1, g2, g3, g4, g5⟩ := h'
  rw [h1] at g1
  cases g1
  rw [h2] at g2
  cases g2
  rw [h3] at g3
  cases g3
  have g := ends_iff.2 g4
  rw [ends_iff.2 h4] at g
  cases g
  exact ⟨rfl, rfl, h5.trans g5.symm⟩

/-! ### One after the other -/

/-- Executing the chunk `k` alone, from the flow reset, gives the data and message `o`. -/
def Alone (F : BFlow σ A V) (n : Nat) (s : σ) (k : Chunk A V) (o : Option A × Option (Msg V)) : Prop :=
  ∃ s', ChunkRun F n (F.reset s) k o.1 o.2 s'

theorem chunksRun_alone {P : PFlow σ A V} {E : σ → σ → Prop} (hF : Faithful P E) {n : Nat} {s : σ} :
    ∀ {t : σ} {ks : List (Chunk A V)} {outs : List (Option A × Option (Msg V))} {t' : σ},
      ChunksRun P.toBFlow n t ks outs t' → E t (P.reset s) → List.Forall₂ (Alone P.toBFlow n s) ks outs := by
  intro t ks outs t' h
  induction h with
  | nil => exact fun _ => .nil
  | @cons t k y m t1 ks outs t2 hk _ ih =>
    intro he
    obtain ⟨s', h1, _⟩ := chunkRun_rel hF he hk
    have hb := (chunkRun_rel hF (hF.refl t) hk)
    obtain ⟨t1', h3, h4⟩ := hb
    obtain ⟨_, _, rfl⟩ := chunkRun_det hk h3
    exact .cons ⟨s', h1⟩ (ih (hF.trans h4 (hF.trans (hF.reset he) (hF.idem s))))

theorem alone_chunksRun {P : PFlow σ A V} {E : σ → σ → Prop} (hF : Faithful P E) {n : Nat} {s : σ} :
    ∀ {ks : List (Chunk A V)} {outs : List (Option A × Option (Msg V))}, List.Forall₂ (Alone P.toBFlow n s) ks outs →
      ∀ {t : σ}, E t (P.reset s) → ∃ t', ChunksRun P.toBFlow n t ks outs t' := by
  intro ks outs h
  induction h with
  | nil => exact fun {t} _ => ⟨t, .nil⟩
  | @cons k o ks outs hk _ ih =>
    intro t he
    obtain ⟨s', h1⟩ := hk
    obtain ⟨t', h2, h3⟩ := chunkRun_rel hF (hF.symm he) h1
    obtain ⟨t'', h4⟩ := ih (hF.trans h3 (hF.trans (hF.reset he) (hF.idem s)))
    exact ⟨t'', .cons h2 h4⟩

theorem foldY_list {ys : List (Option A)} {zs : List A} (h : ys ≠ []) :
    foldY ys .none = .ok (.list zs) ↔ ys = zs.map some := by
  constructor
  · intro hf
    by_cases hn : none ∈ ys
    · exfalso
      cases ys with
      | nil => exact h rfl
      | cons y l =>
        cases y with
        | none =>
          simp only [foldY, addY] at hf
          cases l with
          | nil => simp [foldY] at hf
          | cons z l => rw [foldY_false _ (by simp)] at hf; cases hf
        | some y =>
          simp only [foldY, addY] at hf
          rw [foldY_mixed l _ (by simpa using hn)] at hf
          cases hf
    · obtain ⟨l, rfl⟩ : ∃ l : List A, ys = l.map some := by
        clear hf h
        induction ys with
        | nil => exact ⟨[], rfl⟩
        | cons y ys ih =>
          obtain ⟨l, hl⟩ := ih (by simp at hn; exact hn.2)
          cases y with
          | none => simp at hn
          | some y => exact ⟨y :: l, by simp [hl]⟩
      cases l with
      | nil => exact absurd rfl h
      | cons y l =>
        simp only [List.map_cons, foldY, addY] at hf
        rw [foldY_all] at hf
        cases hf
        rfl
  · rintro rfl
    cases zs with
    | nil => exact absurd rfl h
    | cons y l =>
      simp only [List.map_cons, foldY, addY]
      rw [foldY_all]
      rfl

/-- What an execution of all chunks gives if they do not influence one another: the data `ys` of the chunks in order and
the joined messages `g`. -/
def Gives (F : BFlow σ A V) (O : ValOps V) (n : Nat) (s : σ) (ks : List (Chunk A V)) (ys : List A)
    (g : Str → Option (BVal V)) : Prop :=
  ∃ outs, List.Forall₂ (Alone F n s) ks outs ∧ outs.map Prod.fst = ys.map some ∧
    ∀ key, JoinsTo O (valuesOf key (allEntries (outs.map Prod.snd))) (g key)

theorem seq_iff {P : PFlow σ A V} {E : σ → σ → Prop} (hF : Faithful P E) (O : ValOps V) {n : Nat} {ks : List (Chunk A V)}
    (hk : ks ≠ []) (s : σ) (ys : List A) (g : Str → Option (BVal V)) :
    (∃ r s', execute' P.toBFlow O n ks s = some (.ok r, s') ∧ r.y = .list ys ∧ ∀ key, Dict.get r.msg key = g key) ↔
      Gives P.toBFlow O n s ks ys g := by
  constructor
  · rintro ⟨r, s', he, hy, hg⟩
    unfold execute' at he
    cases h1 : execLoop P.toBFlow O n { s := P.reset s } ks with
    | none => rw [h1] at he; cases he
    | some q =>
      obtain ⟨q, s1⟩ := q
      rw [h1] at he
      cases q with
      | error e => cases he
      | ok st =>
        obtain ⟨outs, g1, g2, g3⟩ := execLoop_runs h1
        simp only at he g1 g2 g3
        have hall := chunksRun_alone hF g1 (hF.refl _)
        have hne : outs ≠ [] := by
          rintro rfl
          cases hall
          exact hk rfl
        cases ks with
        | nil => exact absurd rfl hk
        | cons k ks =>
          cases hm : getMessage O st.c with
          | error e => rw [hm] at he; cases he
          | ok m =>
            rw [hm] at he
            cases he
            refine ⟨outs, hall, (foldY_list (by simpa using hne)).1 (by rw [g3]; exact congrArg _ hy), fun key => ?_⟩
            rw [← hg key]
            exact joined_message g2 hm key
  · rintro ⟨outs, hall, hy, hg⟩
    obtain ⟨s', hc⟩ := alone_chunksRun hF hall (hF.refl _)
    obtain ⟨c, r, h1, h2⟩ := (joined_iff (O := O) (outs.map Prod.snd)).2 fun key => ⟨g key, hg key⟩
    have := (some_but_not_all_partial O hc hk h1 h2).1 ys hy
    refine ⟨_, s', this, rfl, fun key => ?_⟩
    have j : JoinsTo O _ (Dict.get r key) := joined_message h1 h2 key
    exact j.det (hg key)

/-! ### The tasks -/

/-- The data of a task: what `BiFlow.execute` returns for one chunk. -/
def yTask : Option A → YRes A
  | some y => .list [y]
  | none => .false

/-- The message of a task says what the message of its chunk says. -/
def SameMsg (r : Msg V) (m : Option (Msg V)) : Prop := Dict.Ok r ∧ ∀ key, Dict.get r key = Dict.get (m.getD []) key

/-- `concatenate` of one array is that array. -/
def Good (O : ValOps V) : Prop := ∀ v, O.isArr v = true → O.concat [v] = v

/-- The messages that come out of the flow, reset, for the chunk `k` are dictionaries. -/
def Dicts (F : BFlow σ A V) (n : Nat) (k : Chunk A V) : Prop :=
  ∀ s y m s', ChunkRun F n (F.reset s) k y m s' → Dict.Ok (m.getD [])

theorem single_seq {P : PFlow σ A V} {O : ValOps V} (hO : Good O) {n : Nat} {k : Chunk A V} (hD : Dicts P.toBFlow n k)
    {f t : σ} {y : Option A} {m : Option (Msg V)} (h : ChunkRun P.toBFlow n (P.reset f) k y m t) :
    ∃ r, execute' P.toBFlow O n [k] f = some (.ok ⟨yTask y, r⟩, t) ∧ SameMsg r m := by
  obtain ⟨c, r, h1, h2, h3, h4⟩ := joined_single hO m (hD _ _ _ _ h)
  have hl := execLoop_of_runs O (.cons h .nil) { s := P.reset f } c rfl h1
  refine ⟨r, ?_, h3, h4⟩
  cases y with
  | none =>
    obtain ⟨st', e1, e2, e3⟩ := hl
    unfold execute'
    rw [e1]
    simp only [e3, h2, e2]
    rfl
  | some y =>
    obtain ⟨st', e1, e2, e3⟩ := hl
    unfold execute'
    rw [e1]
    simp only [e3, h2, e2]
    rfl

theorem task_ok {P : PFlow σ A V} {E : σ → σ → Prop} (hF : Faithful P E) {O : ValOps V} (hO : Good O)
    {n : Nat} {s t : σ} {k : Chunk A V} (hD : Dicts P.toBFlow n k) {o : Option A × Option (Msg V)}
    (h : Alone P.toBFlow n s k o) (hkx : k.x ≠ none ∨ k.msg ≠ none) (he : E (P.reset t) (P.reset s)) :
    ∃ r fo t', task P O n t k = some (.ok ((yTask o.1, r), fo), t') ∧ SameMsg r o.2 ∧ E (P.reset t') (P.reset s) := by
  obtain ⟨f, hf, hfe⟩ := hF.fork t
  obtain ⟨s', h1⟩ := h
  obtain ⟨f', h2, h3⟩ := chunkRun_rel hF (hF.symm (hF.trans hfe he)) h1
  obtain ⟨r, h4, h5⟩ := single_seq hO hD h2
  refine ⟨r, if P.useFork (P.reset f') then some (P.reset f') else none, P.shared t (P.reset f'), ?_, h5, ?_⟩
  · unfold task
    rw [hf]
    simp only
    rw [if_neg (by
      rintro ⟨a, b⟩
      rcases hkx with h | h
      · exact h (by simpa using a)
      · exact h (by simpa using b)), h4]
  · refine hF.trans (hF.shared t _ ?_) he
    have e1 : E (P.reset (P.reset f')) (P.reset f') := hF.idem f'
    have e2 : E (P.reset f') (P.reset (P.reset (P.reset f))) := hF.reset h3
    have e3 : E (P.reset (P.reset (P.reset f))) (P.reset f) := hF.trans (hF.idem _) (hF.idem f)
    exact hF.trans e1 (hF.trans e2 (hF.trans e3 hfe))

theorem task_inv {P : PFlow σ A V} {E : σ → σ → Prop} (hF : Faithful P E) {O : ValOps V} {n : Nat} {s t t' : σ} {k : Chunk A V} {q : (YRes A × Msg V) × Option σ}
    (h : task P O n t k = some (.ok q, t')) (he : E (P.reset t) (P.reset s)) :
    ∃ o, Alone P.toBFlow n s k o := by
  obtain ⟨f, hf, hfe⟩ := hF.fork t
  unfold task at h
  rw [hf] at h
  simp only at h
  split at h
  · cases h
  · cases h1 : execute' P.toBFlow O n [k] f with
    | none => rw [h1] at h; cases h
    | some z =>
      obtain ⟨z, u⟩ := z
      rw [h1] at h
      cases z with
      | error e => cases h
      | ok r =>
        unfold execute' at h1
        cases h2 : execLoop P.toBFlow O n { s := P.reset f } [k] with
        | none => rw [h2] at h1; cases h1
        | some q2 =>
          obtain ⟨q2, s1⟩ := q2
          rw [h2] at h1
          cases q2 with
          | error e => cases h1
          | ok st =>
            obtain ⟨outs, g1, _, _⟩ := execLoop_runs h2
            cases g1 with
            | @cons _ _ y m _ _ _ _ hk _ =>
              obtain ⟨s', h3, _⟩ := chunkRun_rel hF (hF.trans hfe he) hk
              exact ⟨(y, m), s', h3⟩

theorem addResult_ok {P : PFlow σ A V} {E : σ → σ → Prop} (hF : Faithful P E) (c : Cont σ A V)
    (r : (YRes A × Msg V) × Option σ) (i : Nat) :
    ∃ c', addResult P c r i = .ok c' ∧ c'.results = c.results ++ [(r.1, i)] := by
  obtain ⟨r, fo⟩ := r
  unfold addResult
  cases fo with
  | none => exact ⟨_, rfl, rfl⟩
  | some f =>
    cases hc : c.fn with
    | none => exact ⟨_, rfl, rfl⟩
    | some g =>
      obtain ⟨g', hg, _⟩ := hF.join g f
      simp only [hg]
      exact ⟨_, rfl, rfl⟩

/-- The result of a task for the chunk with outcome `o`, as stored. -/
def Stored (o : Option A × Option (Msg V)) (r : YRes A × Msg V) : Prop := r.1 = yTask o.1 ∧ SameMsg r.2 o.2

theorem runAll_ok {P : PFlow σ A V} {E : σ → σ → Prop} (hF : Faithful P E) {O : ValOps V} (hO : Good O)
    {n : Nat} {s : σ} (out : Chunk A V → Option A × Option (Msg V)) :
    ∀ (ts : List (Chunk A V × Nat)), (∀ t ∈ ts, Alone P.toBFlow n s t.1 (out t.1) ∧ (t.1.x ≠ none ∨ t.1.msg ≠ none)) →
      (∀ t ∈ ts, Dicts P.toBFlow n t.1) →
      ∀ (c : Cont σ A V) (t : σ), E (P.reset t) (P.reset s) → ∃ c' rs t', runAll P O n c t ts = some (.ok c', t') ∧
        E (P.reset t') (P.reset s) ∧ c'.results = c.results ++ rs ∧
        List.Forall₂ (fun (t : Chunk A V × Nat) r => r.2 = t.2 ∧ Stored (out t.1) r.1) ts rs := by
  intro ts
  induction ts with
  | nil => intro _ _ c t he; exact ⟨c, [], t, rfl, he, by simp, .nil⟩
  | cons a ts ih =>
    intro h hD c t he
    obtain ⟨k, i⟩ := a
    obtain ⟨h1, h2⟩ := h (k, i) (by simp)
    obtain ⟨r, fo, t1, e1, e2, e3⟩ := task_ok hF hO (hD (k, i) (by simp)) h1 h2 he
    obtain ⟨c1, e4, e5⟩ := addResult_ok hF c ((yTask (out k).1, r), fo) i
    obtain ⟨c', rs, t', e6, e7, e8, e9⟩ := ih (fun t ht => h t (by simp [ht])) (fun t ht => hD t (by simp [ht])) c1 t1 e3
    refine ⟨c', ((yTask (out k).1, r), i) :: rs, t', ?_, e7, ?_, .cons ⟨rfl, rfl, e2⟩ e9⟩
    · simp only [runAll, e1, e4, e6]
    · rw [e8, e5]; simp

theorem runAll_inv {P : PFlow σ A V} {E : σ → σ → Prop} (hF : Faithful P E) {O : ValOps V} (hO : Good O)
    {n : Nat} {s : σ} :
    ∀ (ts : List (Chunk A V × Nat)) (c : Cont σ A V) (t : σ) {c' t'}, E (P.reset t) (P.reset s) →
      (∀ t ∈ ts, Dicts P.toBFlow n t.1) → (∀ t ∈ ts, t.1.x ≠ none ∨ t.1.msg ≠ none) →
      runAll P O n c t ts = some (.ok c', t') → ∀ t ∈ ts, ∃ o, Alone P.toBFlow n s t.1 o := by
  intro ts
  induction ts with
  | nil => intro c t c' t' _ _ _ _ a ha; cases ha
  | cons a ts ih =>
    intro c t c' t' he hD hx h
    obtain ⟨k, i⟩ := a
    simp only [runAll] at h
    cases h1 : task P O n t k with
    | none => rw [h1] at h; cases h
    | some z =>
      obtain ⟨z, t1⟩ := z
      rw [h1] at h
      cases z with
      | error e => cases h
      | ok q =>
        obtain ⟨o, ho⟩ := task_inv hF h1 he
        obtain ⟨r, fo, t1', e1, e2, e3⟩ := task_ok hF hO (hD (k, i) (by simp)) ho (hx (k, i) (by simp)) he
        rw [h1] at e1
        cases e1
        simp only at h
        obtain ⟨c1, e4, _⟩ := addResult_ok hF c ((yTask o.1, r), fo) i
        rw [e4] at h
        simp only at h
        intro b hb
        rcases List.mem_cons.1 hb with rfl | hb
        · exact ⟨o, ho⟩
        · exact ih c1 t1 e3 (fun t ht => hD t (by simp [ht])) (fun t ht => hx t (by simp [ht])) h b hb

/-! ### Using the results -/

theorem useAll_ok {P : PFlow σ A V} {E : σ → σ → Prop} (hF : Faithful P E) (O : ValOps V) {s : σ} :
    ∀ (rs : List ((YRes A × Msg V) × Option σ)), (∀ r ∈ rs, r.1.1 ≠ .none) → ∀ (acc : Acc σ A V) (l : List (YRes A)),
      acc.y = some l → E (P.reset acc.s) (P.reset s) →
      match foldMsg O (rs.map fun r => some r.1.2) acc.c with
      | .error e => useAll P O acc rs = .error e
      | .ok c => ∃ t, useAll P O acc rs = .ok ⟨some (l ++ rs.map fun r => r.1.1), c, t⟩ ∧ E (P.reset t) (P.reset s) := by
  intro rs
  induction rs with
  | nil =>
    intro _ acc l hl he
    refine ⟨acc.s, ?_, he⟩
    obtain ⟨y, c, t⟩ := acc
    simp only at hl
    subst hl
    simp [useAll]
  | cons a rs ih =>
    intro hn acc l hl he
    obtain ⟨⟨y, m⟩, fo⟩ := a
    have hy : y ≠ .none := hn ((y, m), fo) (by simp)
    have ha : addPar acc.y y = .ok (some (l ++ [y])) := by
      rw [hl]
      cases y with
      | none => exact absurd rfl hy
      | false => rfl
      | list ys => rfl
    have ih' := ih fun r hr => hn r (by simp [hr])
    simp only [List.map_cons, foldMsg, useAll, Option.getD_some]
    cases h1 : addMessage O acc.c m with
    | error e => rfl
    | ok c1 =>
      simp only [ha]
      cases fo with
      | none =>
        have := ih' { y := some (l ++ [y]), c := c1, s := acc.s } (l ++ [y]) rfl he
        simpa using this
      | some f =>
        obtain ⟨t, ht, hte⟩ := hF.join acc.s f
        simp only [ht]
        have := ih' { y := some (l ++ [y]), c := c1, s := t } (l ++ [y]) rfl (hF.trans hte he)
        simpa using this

theorem concatAll_lists (ys : List A) : concatAll (ys.map fun y => YRes.list [y]) = .ok (.list ys) := by
  unfold concatAll
  rw [if_neg (by simp)]
  congr 2
  induction ys with
  | nil => rfl
  | cons y ys ih => simpa using ih

theorem concatAll_false {l : List (YRes A)} (h : YRes.false ∈ l) : concatAll l = .error .valueError := by
  unfold concatAll
  rw [if_pos]
  rw [List.any_eq_true]
  exact ⟨.false, h, rfl⟩

/-- The stored results come back in the order of the chunks. -/
theorem take_stored {ks : List (Chunk A V)} (hk : ks ≠ []) (out : Chunk A V → Option A × Option (Msg V))
    {ts : List (Chunk A V × Nat)} (hp : ts.Perm ks.zipIdx) {rs : List ((YRes A × Msg V) × Nat)}
    (h : List.Forall₂ (fun (t : Chunk A V × Nat) r => r.2 = t.2 ∧ Stored (out t.1) r.1) ts rs) :
    ∃ vs, Mdp.Sched.takeResults true rs = some vs ∧ List.Forall₂ (fun k v => Stored (out k) v) ks vs := by
  -- give every index its result
  have hmem : ∀ i (hi : i < ks.length), ∃ v, (v, i) ∈ rs ∧ Stored (out ks[i]) v := by
    intro i hi
    have : (ks[i], i) ∈ ts := hp.symm.subset (by
      rw [List.mem_zipIdx_iff_getElem?]
      simp [hi])
    clear hp
    induction h with
    | nil => cases this
    | @cons t r ts rs hr _ ih =>
      rcases List.mem_cons.1 this with h1 | h1
      · subst h1
        obtain ⟨r, j⟩ := r
        obtain ⟨e1, e2⟩ := hr
        simp only at e1 e2
        subst e1
        exact ⟨r, by simp, e2⟩
      · obtain ⟨v, h2, h3⟩ := ih h1
        exact ⟨v, by simp [h2], h3⟩
  let vs : List (YRes A × Msg V) := List.ofFn fun i : Fin ks.length => (hmem i i.2).choose
  have hvl : vs.length = ks.length := by simp [vs]
  have hvs : ∀ i (hi : i < ks.length), (vs[i]'(by omega), i) ∈ rs ∧ Stored (out ks[i]) (vs[i]'(by omega)) := by
    intro i hi
    have := (hmem i hi).choose_spec
    simpa [vs] using this
  have hsnd : rs.map Prod.snd = ts.map Prod.snd := by
    clear hp hmem hvs hvl vs
    induction h with
    | nil => rfl
    | @cons t r ts rs hr _ ih => simp [hr.1, ih]
  have hnd : (rs.map Prod.snd).Nodup := by
    rw [hsnd]
    refine ((hp.map Prod.snd).nodup_iff).2 ?_
    rw [List.zipIdx_map_snd]
    exact List.nodup_range' (step := 1) (by omega)
  have hlen : rs.length = ks.length := by
    rw [← h.length_eq, hp.length_eq]
    simp
  have hsub : vs.zipIdx ⊆ rs := by
    intro a ha
    obtain ⟨v, i⟩ := a
    rw [List.mem_zipIdx_iff_getElem?] at ha
    simp only at ha
    obtain ⟨hi, rfl⟩ := List.getElem?_eq_some_iff.1 ha
    exact (hvs i (by omega)).1
  have hnd2 : vs.zipIdx.Nodup := by
    refine List.Nodup.of_map Prod.snd ?_
    rw [List.zipIdx_map_snd]
    exact List.nodup_range' (step := 1) (by omega)
  have hperm : rs.Perm vs.zipIdx := by
    refine ((List.subperm_of_subset hnd2 hsub).perm_of_length_le ?_).symm
    simp [hlen, hvl]
  refine ⟨vs, PFlow.Exec.takeResults_zipIdx (by
    intro hv
    have : ks.length = 0 := by rw [← hvl, hv]; rfl
    exact hk (List.length_eq_zero_iff.1 this)) hperm, ?_⟩
  rw [List.forall₂_iff_get]
  refine ⟨hvl.symm, fun i h1 h2 => ?_⟩
  exact (hvs i h1).2

/-- Parallel execution when every chunk can be executed alone. -/
theorem par_run {P : PFlow σ A V} {E : σ → σ → Prop} (hF : Faithful P E) {O : ValOps V} (hO : Good O)
    {n : Nat} {arr : List (Chunk A V × Nat) → List (Chunk A V × Nat)} (harr : ∀ l, (arr l).Perm l)
    {c : Cont σ A V} (hc : c.results = []) {ks : List (Chunk A V)} (hk : ks ≠ [])
    (hD : ∀ k ∈ ks, Dicts P.toBFlow n k) (hkx : ∀ k ∈ ks, k.x ≠ none ∨ k.msg ≠ none) {s : σ} (out : Chunk A V → Option A × Option (Msg V))
    (hout : ∀ k ∈ ks, Alone P.toBFlow n s k (out k)) :
    ∃ vs fn s1, E (P.reset s1) (P.reset s) ∧ List.Forall₂ (fun k v => Stored (out k) v) ks vs ∧
      Par.execute P O n arr c ks s =
        match useResults P O s1 (vs.zip (fn :: List.replicate (vs.length - 1) none)) with
        | (.error e, s'') => some (.error e, s'')
        | (.ok x, s'') => some (.ok (x, { results := [], fn := fn }), s'') := by
  have hmem : ∀ t ∈ arr ks.zipIdx, t.1 ∈ ks := by
    intro t ht
    have := (harr ks.zipIdx).subset ht
    obtain ⟨k, i⟩ := t
    rw [List.mem_zipIdx_iff_getElem?] at this
    exact List.mem_of_getElem? this
  obtain ⟨c1, rs, s1, e1, e2, e3, e4⟩ := runAll_ok hF hO out (arr ks.zipIdx)
    (fun t ht => ⟨hout _ (hmem t ht), hkx _ (hmem t ht)⟩) (fun t ht => hD _ (hmem t ht)) c (P.reset s) (hF.idem s)
  obtain ⟨vs, e5, e6⟩ := take_stored hk out (harr _) e4
  refine ⟨vs, c1.fn, s1, e2, e6, ?_⟩
  rw [hc, List.nil_append] at e3
  unfold Par.execute
  rw [if_neg (by simpa using hk), e1]
  simp only [e3, e5]
  cases vs with
  | nil =>
    cases e6
    exact absurd rfl hk
  | cons v vs =>
    have : (v :: vs).zip (c1.fn :: List.replicate ((v :: vs).length - 1) none) =
        (v, c1.fn) :: vs.map fun r => (r, none) := by
      simp only [List.zip_cons_cons, List.length_cons, Nat.add_sub_cancel]
      congr 1
      clear e5 e6
      induction vs with
      | nil => rfl
      | cons w vs ih => simp only [List.length_cons, List.replicate_succ, List.zip_cons_cons, List.map_cons, ih]
    rw [this]
    rfl

/-- The values of the stored messages are those of the chunks' messages. -/
theorem stored_values {ks : List (Chunk A V)} (out : Chunk A V → Option A × Option (Msg V))
    {vs : List (YRes A × Msg V)} (hd : ∀ k ∈ ks, Dict.Ok ((out k).2.getD []))
    (h : List.Forall₂ (fun k v => Stored (out k) v) ks vs) (key : Str) :
    valuesOf key (allEntries (vs.map fun v => some v.2)) = valuesOf key (allEntries (ks.map fun k => (out k).2)) := by
  induction h with
  | nil => rfl
  | @cons k v ks vs hv _ ih =>
    have e1 : allEntries (((v :: vs)).map fun v => some v.2) = v.2 ++ allEntries (vs.map fun v => some v.2) := by
      simp [allEntries]
    have e2 : allEntries ((k :: ks).map fun k => (out k).2) =
        (out k).2.getD [] ++ allEntries (ks.map fun k => (out k).2) := by simp [allEntries]
    rw [e1, e2, valuesOf_app, valuesOf_app, ih fun k' hk' => hd k' (by simp [hk']), valuesOf_dict _ _ hv.2.1,
      valuesOf_dict _ _ (hd k (by simp)), hv.2.2 key]

theorem stored_lists {ks : List (Chunk A V)} (out : Chunk A V → Option A × Option (Msg V))
    {vs : List (YRes A × Msg V)} (h : List.Forall₂ (fun k v => Stored (out k) v) ks vs) :
    (vs.map fun v => v.1) = ks.map fun k => yTask (out k).1 := by
  induction h with
  | nil => rfl
  | cons hv _ ih => rw [List.map_cons, List.map_cons, ih, hv.1]

/-- Data and messages of the results. -/
theorem useResults_iff {P : PFlow σ A V} {E : σ → σ → Prop} (hF : Faithful P E) {O : ValOps V} {s1 s : σ}
    (he : E (P.reset s1) (P.reset s)) {ks : List (Chunk A V)} (out : Chunk A V → Option A × Option (Msg V))
    {vs : List (YRes A × Msg V)} (hd : ∀ k ∈ ks, Dict.Ok ((out k).2.getD []))
    (h : List.Forall₂ (fun k v => Stored (out k) v) ks vs) (fn : Option σ) (ys : List A) (g : Str → Option (BVal V)) :
    (∃ x s', useResults P O s1 (vs.zip (fn :: List.replicate (vs.length - 1) none)) = (.ok x, s') ∧ x.y = .list ys ∧
        ∀ key, Dict.get x.msg key = g key) ↔
      (ks.map fun k => (out k).1) = ys.map some ∧
        ∀ key, JoinsTo O (valuesOf key (allEntries (ks.map fun k => (out k).2))) (g key) := by
  set rs := vs.zip (fn :: List.replicate (vs.length - 1) none) with hrs
  have hlen : vs.length ≤ (fn :: List.replicate (vs.length - 1) (none : Option σ)).length := by simp; omega
  have hfst : rs.map Prod.fst = vs := List.map_fst_zip hlen
  have h1 : (rs.map fun r => r.1.1) = ks.map fun k => yTask (out k).1 := by
    rw [← stored_lists out h, ← hfst, List.map_map]
    rfl
  have h2 : (rs.map fun r => some r.1.2) = vs.map fun v => some v.2 := by
    conv_rhs => rw [← hfst, List.map_map]
    rfl
  have hnn : ∀ r ∈ rs, r.1.1 ≠ .none := by
    intro r hr
    have : r.1.1 ∈ rs.map fun r => r.1.1 := List.mem_map.2 ⟨r, hr, rfl⟩
    rw [h1] at this
    obtain ⟨k, _, hk⟩ := List.mem_map.1 this
    rw [← hk]
    cases (out k).1 <;> simp [yTask]
  have hu := useAll_ok hF O rs hnn { s := s1 } [] rfl he
  rw [h2] at hu
  have hval := stored_values out hd h
  unfold useResults
  constructor
  · rintro ⟨x, s', hx, hy, hg⟩
    cases hm : foldMsg O (vs.map fun v => some v.2) {} with
    | error e =>
      rw [hm] at hu
      simp only at hu
      rw [hu] at hx
      cases hx
    | ok c =>
      rw [hm] at hu
      obtain ⟨t, hu, _⟩ := hu
      rw [hu] at hx
      simp only [List.nil_append, h1] at hx
      by_cases hf : ∃ k ∈ ks, (out k).1 = none
      · obtain ⟨k, hk, hk0⟩ := hf
        rw [concatAll_false (List.mem_map.2 ⟨k, hk, by rw [hk0]; rfl⟩)] at hx
        cases hx
      · obtain ⟨l, hl⟩ : ∃ l : List A, (ks.map fun k => (out k).1) = l.map some := by
          clear hx hu hval h1 h2 h hd
          clear_value rs
          induction ks with
          | nil => exact ⟨[], rfl⟩
          | cons k ks ih =>
            obtain ⟨l, hl⟩ := ih fun ⟨k', hk', e⟩ => hf ⟨k', by simp [hk'], e⟩
            cases hk : (out k).1 with
            | none => exact absurd ⟨k, by simp, hk⟩ hf
            | some y => exact ⟨y :: l, by simp [hl, hk]⟩
        have hyt : (ks.map fun k => yTask (out k).1) = l.map fun y => YRes.list [y] := by
          have : (ks.map fun k => yTask (out k).1) = (ks.map fun k => (out k).1).map yTask := by
            rw [List.map_map]; rfl
          rw [this, hl, List.map_map]
          rfl
        rw [hyt, concatAll_lists] at hx
        simp only at hx
        cases hgm : getMessage O c with
        | error e => rw [hgm] at hx; cases hx
        | ok m =>
          rw [hgm] at hx
          cases hx
          simp only at hy hg
          cases hy
          refine ⟨hl, fun key => ?_⟩
          rw [← hval key, ← hg key]
          exact joined_message hm hgm key
  · rintro ⟨hy, hg⟩
    obtain ⟨c, r, hm, hgm⟩ := (joined_iff (O := O) (vs.map fun v => some v.2)).2 fun key =>
      ⟨g key, by rw [hval key]; exact hg key⟩
    rw [hm] at hu
    obtain ⟨t, hu, _⟩ := hu
    have hyt : (ks.map fun k => yTask (out k).1) = ys.map fun y => YRes.list [y] := by
      have : (ks.map fun k => yTask (out k).1) = (ks.map fun k => (out k).1).map yTask := by
        rw [List.map_map]; rfl
      rw [this, hy, List.map_map]
      rfl
    refine ⟨⟨.list ys, r⟩, t, ?_, rfl, fun key => ?_⟩
    · rw [hu]
      simp only [List.nil_append, h1, hyt, concatAll_lists, hgm]
    · have j : JoinsTo O _ (Dict.get r key) := joined_message hm hgm key
      rw [hval key] at j
      exact j.det (hg key)

theorem alone_det {F : BFlow σ A V} {n : Nat} {s : σ} {k : Chunk A V} {o o' : Option A × Option (Msg V)}
    (h : Alone F n s k o) (h' : Alone F n s k o') : o = o' := by
  obtain ⟨s1, h⟩ := h
  obtain ⟨s2, h'⟩ := h'
  obtain ⟨e1, e2, _⟩ := chunkRun_det h h'
  exact Prod.ext e1 e2

theorem forall₂_map {α β : Type} {R : α → β → Prop} {out : α → β} {l : List α} {m : List β} (h : List.Forall₂ R l m)
    (hd : ∀ a b, R a b → b = out a) : m = l.map out := by
  induction h with
  | nil => rfl
  | cons hr _ ih => rw [List.map_cons, ← ih, hd _ _ hr]

theorem par_iff {P : PFlow σ A V} {E : σ → σ → Prop} (hF : Faithful P E) {O : ValOps V} (hO : Good O)
    {n : Nat} {arr : List (Chunk A V × Nat) → List (Chunk A V × Nat)} (harr : ∀ l, (arr l).Perm l)
    {c : Cont σ A V} (hc : c.results = []) {ks : List (Chunk A V)} (hk : ks ≠ [])
    (hD : ∀ k ∈ ks, Dicts P.toBFlow n k) (hkx : ∀ k ∈ ks, k.x ≠ none ∨ k.msg ≠ none) (s : σ) (ys : List A) (g : Str → Option (BVal V)) :
    (∃ r c' s', Par.execute P O n arr c ks s = some (.ok (r, c'), s') ∧ r.y = .list ys ∧
        ∀ key, Dict.get r.msg key = g key) ↔ Gives P.toBFlow O n s ks ys g := by
  classical
  let out : Chunk A V → Option A × Option (Msg V) := fun k =>
    if h : ∃ o, Alone P.toBFlow n s k o then h.choose else (none, none)
  have hout : ∀ k, (∃ o, Alone P.toBFlow n s k o) → Alone P.toBFlow n s k (out k) := by
    intro k h
    have : out k = h.choose := dif_pos h
    rw [this]
    exact h.choose_spec
  by_cases hall : ∀ k ∈ ks, ∃ o, Alone P.toBFlow n s k o
  · obtain ⟨vs, fn, s1, e1, e2, e3⟩ := par_run hF hO harr hc hk hD hkx out fun k hk => hout k (hall k hk)
    have hd : ∀ k ∈ ks, Dict.Ok ((out k).2.getD []) := by
      intro k hk
      obtain ⟨s', h⟩ := hout k (hall k hk)
      exact hD k hk _ _ _ _ h
    have hi := useResults_iff hF (O := O) e1 out hd e2 fn ys g
    have hG : Gives P.toBFlow O n s ks ys g ↔ (ks.map fun k => (out k).1) = ys.map some ∧
        ∀ key, JoinsTo O (valuesOf key (allEntries (ks.map fun k => (out k).2))) (g key) := by
      have hmap : ∀ outs, List.Forall₂ (Alone P.toBFlow n s) ks outs → outs = ks.map out := fun outs ho =>
        forall₂_map ho fun k o hko => alone_det hko (hout k ⟨o, hko⟩)
      constructor
      · rintro ⟨outs, ho, h1, h2⟩
        rw [hmap outs ho] at h1 h2
        simp only [List.map_map] at h1 h2
        exact ⟨h1, h2⟩
      · rintro ⟨h1, h2⟩
        refine ⟨ks.map out, ?_, by rw [List.map_map]; exact h1, by rw [List.map_map]; exact h2⟩
        clear e2 e3 hi h1 h2 hmap hd hk hkx hD
        induction ks with
        | nil => exact .nil
        | cons k ks ih => exact .cons (hout k (hall k (by simp))) (ih fun k' hk' => hall k' (by simp [hk']))
    rw [hG, ← hi]
    constructor
    · rintro ⟨r, c', s', h1, h2, h3⟩
      rw [e3] at h1
      generalize useResults P O s1 (vs.zip (fn :: List.replicate (vs.length - 1) none)) = q at h1 ⊢
      obtain ⟨q, s''⟩ := q
      cases q with
      | error e => cases h1
      | ok x => cases h1; exact ⟨_, _, rfl, h2, h3⟩
    · rintro ⟨x, s', h1, h2, h3⟩
      refine ⟨x, { results := [], fn := fn }, s', ?_, h2, h3⟩
      rw [e3, h1]
  · constructor
    · rintro ⟨r, c', s', h1, _, _⟩
      exfalso
      apply hall
      unfold Par.execute at h1
      rw [if_neg (by simpa using hk)] at h1
      cases h2 : runAll P O n c (P.reset s) (arr ks.zipIdx) with
      | none => rw [h2] at h1; cases h1
      | some z =>
        obtain ⟨z, s1⟩ := z
        rw [h2] at h1
        cases z with
        | error e => cases h1
        | ok c1 =>
          have hx : ∀ t ∈ arr ks.zipIdx, t.1 ∈ ks := by
            intro t ht
            have := (harr ks.zipIdx).subset ht
            obtain ⟨k, i⟩ := t
            rw [List.mem_zipIdx_iff_getElem?] at this
            exact List.mem_of_getElem? this
          have := runAll_inv hF hO (s := s) _ _ _ (hF.idem s) (fun t ht => hD _ (hx t ht)) (fun t ht => hkx _ (hx t ht)) h2
          intro k hk'
          obtain ⟨i, hi, rfl⟩ := List.mem_iff_getElem.1 hk'
          exact this (ks[i], i) ((harr _).symm.subset (by rw [List.mem_zipIdx_iff_getElem?]; simp [hi]))
    · rintro ⟨outs, ho, h1, h2⟩
      exfalso
      apply hall
      clear hk hkx hD hall hout h1 h2
      clear_value out
      induction ho with
      | nil => intro k hk'; cases hk'
      | cons hr _ ih =>
        intro k hk'
        rcases List.mem_cons.1 hk' with rfl | hk'
        · exact ⟨_, hr⟩
        · exact ih k hk'

/-! ### C201 -/

/-- **C201, for chunks with an output.** For every order in which the tasks finish, whatever earlier executions have left
in the result container: `ParallelBiFlow.execute` returns the data `ys` and a message with the values `g` iff
`BiFlow.execute` does. Missing: executions that return no data. -/
theorem parallel_biflow_execute_partial {P : PFlow σ A V} {E : σ → σ → Prop} (hF : Faithful P E) {O : ValOps V}
    (hO : Good O) {n : Nat} {arr : List (Chunk A V × Nat) → List (Chunk A V × Nat)}
    (harr : ∀ l, (arr l).Perm l) {c : Cont σ A V} (hc : c.results = []) {ks : List (Chunk A V)}
    (hD : ∀ k ∈ ks, Dicts P.toBFlow n k) (hkx : ∀ k ∈ ks, k.x ≠ none ∨ k.msg ≠ none) (s : σ) (ys : List A) (g : Str → Option (BVal V)) :
    (∃ r c' s', Par.execute P O n arr c ks s = some (.ok (r, c'), s') ∧ r.y = .list ys ∧
        ∀ key, Dict.get r.msg key = g key) ↔
      ∃ r s', execute' P.toBFlow O n ks s = some (.ok r, s') ∧ r.y = .list ys ∧ ∀ key, Dict.get r.msg key = g key := by
  by_cases hk : ks = []
  · subst hk
    constructor
    · rintro ⟨r, c', s', h, _⟩
      simp [Par.execute] at h
    · rintro ⟨r, s', h, _⟩
      simp [execute', execLoop] at h
  · rw [par_iff hF hO harr hc hk hD hkx, seq_iff hF O hk]

/-- In the same process, executing leaves the flow computing what it computed before. -/
theorem parallel_biflow_execute_back {P : PFlow σ A V} {E : σ → σ → Prop} (hF : Faithful P E) {O : ValOps V}
    (hO : Good O) {n : Nat} {arr : List (Chunk A V × Nat) → List (Chunk A V × Nat)}
    (harr : ∀ l, (arr l).Perm l) {c : Cont σ A V} (hc : c.results = []) {ks : List (Chunk A V)}
    (hD : ∀ k ∈ ks, Dicts P.toBFlow n k) (hkx : ∀ k ∈ ks, k.x ≠ none ∨ k.msg ≠ none) {s s' : σ} {x : ExRes A V} {c' : Cont σ A V}
    (h : Par.execute P O n arr c ks s = some (.ok (x, c'), s')) : E (P.reset s') (P.reset s) ∧ c'.results = [] := by
  classical
  have hk : ks ≠ [] := by rintro rfl; simp [Par.execute] at h
  have hx : ∀ t ∈ arr ks.zipIdx, t.1 ∈ ks := by
    intro t ht
    have := (harr ks.zipIdx).subset ht
    obtain ⟨k, i⟩ := t
    rw [List.mem_zipIdx_iff_getElem?] at this
    exact List.mem_of_getElem? this
  have hall : ∀ k ∈ ks, ∃ o, Alone P.toBFlow n s k o := by
    unfold Par.execute at h
    rw [if_neg (by simpa using hk)] at h
    cases h2 : runAll P O n c (P.reset s) (arr ks.zipIdx) with
    | none => rw [h2] at h; cases h
    | some z =>
      obtain ⟨z, s1⟩ := z
      rw [h2] at h
      cases z with
      | error e => cases h
      | ok c1 =>
        have := runAll_inv hF hO (s := s) _ _ _ (hF.idem s) (fun t ht => hD _ (hx t ht)) (fun t ht => hkx _ (hx t ht)) h2
        intro k hk'
        obtain ⟨i, hi, rfl⟩ := List.mem_iff_getElem.1 hk'
        exact this (ks[i], i) ((harr _).symm.subset (by rw [List.mem_zipIdx_iff_getElem?]; simp [hi]))
  let out : Chunk A V → Option A × Option (Msg V) := fun k =>
    if h : ∃ o, Alone P.toBFlow n s k o then h.choose else (none, none)
  have hout : ∀ k ∈ ks, Alone P.toBFlow n s k (out k) := by
    intro k hk
    have : out k = (hall k hk).choose := dif_pos (hall k hk)
    rw [this]
    exact (hall k hk).choose_spec
  obtain ⟨vs, fn, s1, e1, e2, e3⟩ := par_run hF hO harr hc hk hD hkx out hout
  rw [e3] at h
  have hnn : ∀ r ∈ vs.zip (fn :: List.replicate (vs.length - 1) none), r.1.1 ≠ .none := by
    intro r hr
    have : r.1.1 ∈ vs.map fun v => v.1 := List.mem_map.2 ⟨r.1, (List.of_mem_zip hr).1, rfl⟩
    rw [stored_lists out e2] at this
    obtain ⟨k, _, hk⟩ := List.mem_map.1 this
    rw [← hk]
    cases (out k).1 <;> simp [yTask]
  have hu := useAll_ok hF O _ hnn { s := s1 } [] rfl e1
  unfold useResults at h
  cases hm : foldMsg O ((vs.zip (fn :: List.replicate (vs.length - 1) none)).map fun r => some r.1.2) {} with
  | error e =>
    rw [hm] at hu
    simp only at hu
    rw [hu] at h
    cases h
  | ok cc =>
    rw [hm] at hu
    obtain ⟨t, hu, ht⟩ := hu
    rw [hu] at h
    simp only at h
    cases hcc : concatAll ([] ++ (vs.zip (fn :: List.replicate (vs.length - 1) none)).map fun r => r.1.1) with
    | error e => rw [hcc] at h; cases h
    | ok y =>
      rw [hcc] at h
      simp only at h
      cases hg : getMessage O cc with
      | error e => rw [hg] at h; cases h
      | ok m => rw [hg] at h; cases h; exact ⟨ht, rfl⟩

/-! ### Violations and a concrete flow -/

/-- A flow of one node that is called three times for a chunk, adds one to its data in each call but the last, and counts
its calls for the chunk and its calls altogether; a reset sets back the first. Forks come back and are joined. -/
def tally : PFlow (Nat × Nat) Nat Nat where
  len := 1
  isBi := fun _ => true
  exec := fun _ s x _ =>
    (.ok (if s.1 < 2 then .triple (x.map (· + 1)) none (.int 0)
      else .pair x (some [(['n'], .int 1), (['a'], .other 3)])), (s.1 + 1, s.2 + 1))
  plain := fun _ s x => (.ok x, s)
  hasId := fun _ _ => false
  reset := fun s => (0, s.2)
  trainable := fun _ => false
  remaining := fun _ _ => 0
  train := fun _ s _ _ => (.ok (.single none), s)
  plainTrain := fun _ s _ => (.ok (), s)
  stop := fun _ s _ => (.ok (.single none), s)
  preExec := fun s _ => (.ok (), s)
  refcast := fun _ x => x
  useFork := fun _ => true
  fork := fun s => some (s.1, 0)
  join := fun s t => .ok (s.1, s.2 + t.2)
  shared := fun s _ => s
  preTrain := fun s _ => (.ok (), s)
  third := fun _ => .ok true

theorem tally_faithful : Faithful tally fun s t => s.1 = t.1 where
  refl := fun _ => rfl
  symm := fun h => h.symm
  trans := fun h h' => h.trans h'
  exec := fun j s t x m h => by simp only [tally]; rw [h]; exact ⟨rfl, rfl⟩
  plain := fun j s t x h => ⟨rfl, h⟩
  reset := fun _ => rfl
  idem := fun _ => rfl
  execBack := fun _ _ _ _ => rfl
  plainBack := fun _ _ _ => rfl
  fork := fun s => ⟨_, rfl, rfl⟩
  join := fun s t => ⟨_, rfl, rfl⟩
  shared := fun s t _ => rfl

/-- Arrays that are one number: `concatenate` keeps the first; numbers are added. -/
def firstOps : ValOps Nat where
  isArr := fun v => match v with | .other _ => true | _ => false
  add := demoOps.add
  concat := fun vs => vs.headD .none

/-- Non-vacuity of C201: three chunks whose tasks finish in the reverse order; the hypotheses hold and both executions
return the data and the joined message. -/
example : Faithful tally (fun s t => s.1 = t.1) ∧ Good firstOps ∧ (∀ x, Dicts tally.toBFlow 5 { x := some x }) ∧
    (∀ l : List (Chunk Nat Nat × Nat), l.reverse.Perm l) ∧
    (execute' tally.toBFlow firstOps 5 [{ x := some 10 }, { x := some 20 }, { x := some 30 }] (0, 7)).map
        (fun q => (q.1.toOption.map (·.y), q.1.toOption.map (·.msg), q.2)) =
      some (some (.list [12, 22, 32]), some [(['n'], .int 3), (['a'], .other 3)], (0, 16)) ∧
    (Par.execute tally firstOps 5 List.reverse {} [{ x := some 10 }, { x := some 20 }, { x := some 30 }] (0, 7)).map
        (fun q => (q.1.toOption.map (·.1.y), q.1.toOption.map (·.1.msg), q.2)) =
      some (some (.list [12, 22, 32]), some [(['n'], .int 3), (['a'], .other 3)], (0, 16)) := by
  refine ⟨tally_faithful, ?_, ?_, fun l => l.reverse_perm, rfl, ?_⟩
  · intro v hv; rfl
  · intro x s y m s' h
    have : ChunkRun tally.toBFlow 5 (tally.reset s) { x := some x } (some (x + 1 + 1))
        (some [(['n'], .int 1), (['a'], .other 3)]) (0, s.2 + 1 + 1 + 1) :=
      ⟨.int 0, _, _, rfl, rfl, rfl, ends_iff.1 rfl, rfl⟩
    obtain ⟨_, rfl, _⟩ := chunkRun_det h this
    show ([['n'], ['a']] : List Str).Nodup
    decide
  · unfold Par.execute
    have h1 : runAll tally firstOps 5 {} (tally.reset (0, 7)) [({ x := some 30 }, 2), ({ x := some 20 }, 1),
        ({ x := some 10 }, 0)] = some (.ok
          { results := [((.list [32], [(['n'], .int 1), (['a'], .other 3)]), 2),
              ((.list [22], [(['n'], .int 1), (['a'], .other 3)]), 1),
              ((.list [12], [(['n'], .int 1), (['a'], .other 3)]), 0)], fn := some (0, 9) }, (0, 7)) := rfl
    have h2 : ∀ a b c : YRes Nat × Msg Nat, Mdp.Sched.takeResults true [(a, 2), (b, 1), (c, 0)] = some [c, b, a] := by
      intro a b c
      simp [Mdp.Sched.takeResults, List.mergeSort, List.MergeSort.Internal.splitInTwo]
    rw [if_neg (by simp)]
    simp only [List.zipIdx, List.reverse_cons, List.reverse_nil, List.nil_append, List.cons_append, Nat.zero_add,
      Nat.reduceAdd, h1, h2]
    rfl

/-- A flow whose only node returns a message but no data. -/
def silent : PFlow (Nat × Nat) Nat Nat :=
  { tally with exec := fun _ s _ _ => (.ok (.pair none (some [(['n'], .int 1)])), s) }

/-- **C201, violated.** For a chunk without output data `BiFlow.execute` returns the message, `ParallelBiFlow.execute`
raises an exception and the message is lost. -/
theorem parallel_biflow_execute_false :
    (execute' silent.toBFlow firstOps 5 [{ x := some 1 }] (0, 0)).map
        (fun q => (q.1.toOption.map (·.y), q.1.toOption.map (·.msg))) =
      some (some .false, some [(['n'], .int 1)]) ∧
    (Par.execute silent firstOps 5 id {} [{ x := some 1 }] (0, 0)).map (fun q => q.1.map fun _ => ()) =
      some (.error .valueError) := by
  constructor
  · rfl
  · unfold Par.execute
    have h1 : runAll silent firstOps 5 {} (silent.reset (0, 0)) [({ x := some 1 }, 0)] = some (.ok
        { results := [((.false, [(['n'], .int 1)]), 0)], fn := some (0, 0) }, (0, 0)) := rfl
    have h2 : ∀ a : YRes Nat × Msg Nat, Mdp.Sched.takeResults true [(a, 0)] = some [a] := by
      intro a
      simp [Mdp.Sched.takeResults]
    rw [if_neg (by simp)]
    simp only [List.zipIdx, id, h1, h2]
    rfl

end Bi.Par
