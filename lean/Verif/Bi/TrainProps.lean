import Verif.Bi.Train
import Verif.Bi.ChunkProps

/-!
# Properties of `BiFlow.train`

C97 (order and completeness of the training), C98 (training without jumps), C99 (checkpoints).
-/

namespace Bi

open Py

variable {σ A V : Type} [DecidableEq V]

/-! ### Invariants -/

/-- What execution, resets and the end of phases keep. -/
structure Keeps (F : TFlow σ A V) (I : σ → Prop) : Prop where
  exec : ∀ j s x m, I s → I (F.exec j s x m).2
  plain : ∀ j s x, I s → I (F.plain j s x).2
  reset : ∀ s, I s → I (F.reset s)

/-- What the training of one node keeps. -/
structure KeepsTrain (F : TFlow σ A V) (I : σ → Prop) (nr : Nat) : Prop where
  train : ∀ s x m, I s → I (F.train nr s x m).2
  plainTrain : ∀ s x, I s → I (F.plainTrain nr s x).2
  stop : ∀ s m, I s → I (F.stop nr s m).2

theorem runNode_keeps {F : TFlow σ A V} {I : σ → Prop} (h : Keeps F I) (j : Nat) (s : σ) (x : Option A)
    (m : Option (Msg V)) (hs : I s) : I (runNode F.toBFlow j s x m).2 := by
  unfold runNode
  split
  · have := h.exec j s x m hs
    generalize F.exec j s x m = q at this
    obtain ⟨q, s'⟩ := q
    cases q with
    | error e => exact this
    | ok r => cases r <;> exact this
  · have := h.plain j s x hs
    generalize F.plain j s x = q at this
    obtain ⟨q, s'⟩ := q
    cases q <;> exact this

theorem seqStep_keeps {F : TFlow σ A V} {I : σ → Prop} (h : Keeps F I) (stop : Option Nat) (c : Cfg σ A V)
    (hs : I c.s) : I (endState (seqStep F.toBFlow stop c)) := by
  unfold seqStep
  cases c.i with
  | int i =>
    simp only
    split
    · exact hs
    · cases pyIndex F.len i with
      | none => exact hs
      | some j =>
        simp only
        have := runNode_keeps h j c.s c.x c.msg hs
        generalize runNode F.toBFlow j c.s c.x c.msg = q at this
        obtain ⟨q, s'⟩ := q
        cases q with
        | error e => exact this
        | ok q =>
          obtain ⟨y, m, t⟩ := q
          simp only
          rw [afterNode_state]
          exact this
  | none => exact hs
  | str u => exact hs
  | other v => exact hs

theorem executeSeq_keeps {F : TFlow σ A V} {I : σ → Prop} (h : Keeps F I) {stop : Option Nat} {n : Nat} {i : BVal V}
    {x : Option A} {m : Option (Msg V)} {s : σ} {o : Out σ A V}
    (ho : executeSeq F.toBFlow stop n i x m s = some o) (hs : I s) : I o.s := by
  have key : ∀ n (c : Cfg σ A V) o, runFuel (seqStep F.toBFlow stop) n c = some o → I c.s → I o.s := by
    intro n
    induction n with
    | zero => intro c o h; cases h
    | succ n ih =>
      intro c o hr hc
      rw [runFuel] at hr
      have hs := seqStep_keeps h stop c hc
      generalize seqStep F.toBFlow stop c = z at hs hr
      cases z with
      | inl c' => exact ih c' o hr hs
      | inr o' => cases hr; exact hs
  exact key n _ o ho hs

theorem trainChunk_keeps {F : TFlow σ A V} {I : σ → Prop} {nr : Nat} (h : Keeps F I) (ht : KeepsTrain F I nr) {n : Nat} :
    ∀ k i x m s r, trainChunk F n nr k i x m s = some r → I s → I r.2 := by
  intro k
  induction k with
  | zero => intro i x m s r hr; cases hr
  | succ k ih =>
    intro i x m s r hr hs
    unfold trainChunk at hr
    cases ho : executeSeq F.toBFlow (some nr) n i x m s with
    | none => rw [ho] at hr; cases hr
    | some o =>
      rw [ho] at hr
      have hI := executeSeq_keeps h ho hs
      simp only at hr
      split at hr
      · cases hr; exact hI
      · rename_i x' m' _
        split at hr
        · have h1 := ht.train o.s x' m' hI
          generalize F.train nr o.s x' m' = q at h1 hr
          obtain ⟨q, s'⟩ := q
          cases q with
          | error e => cases hr; exact h1
          | ok q =>
            split at hr
            · rename_i e; cases e
            · rename_i e; cases e; cases hr; exact h1
            · rename_i r' s'' _ e
              cases e
              cases ht' : targetToIndex F.toBFlow q.parts.2.2 nr with
              | error e => rw [ht'] at hr; cases hr; exact h1
              | ok i' =>
                rw [ht'] at hr
                exact ih _ _ _ _ _ hr h1
        · have h1 := ht.plainTrain o.s x' hI
          generalize F.plainTrain nr o.s x' = q at h1 hr
          obtain ⟨q, s'⟩ := q
          cases q <;> (cases hr; exact h1)
      · cases hr; exact hI

theorem trainChunks_keeps {F : TFlow σ A V} {I : σ → Prop} {nr : Nat} (h : Keeps F I) (ht : KeepsTrain F I nr) {n : Nat} :
    ∀ ks s r, trainChunks F n nr ks s = some r → I s → I r.2 := by
  intro ks
  induction ks with
  | nil => intro s r hr hs; cases hr; exact hs
  | cons c ks ih =>
    obtain ⟨x, m⟩ := c
    intro s r hr hs
    unfold trainChunks at hr
    cases hc : trainChunk F n nr n (.int 0) x m s with
    | none => rw [hc] at hr; cases hr
    | some q =>
      have h1 := trainChunk_keeps h ht _ _ _ _ _ _ hc hs
      obtain ⟨q, s'⟩ := q
      rw [hc] at hr
      cases q with
      | error e => cases hr; exact h1
      | ok u => exact ih _ _ hr (h.reset _ h1)

theorem stopPhase_keeps {F : TFlow σ A V} {I : σ → Prop} {nr : Nat} (h : Keeps F I) (ht : KeepsTrain F I nr) {n : Nat}
    {sm : Option (Msg V)} {s : σ} {r : Except Err Unit × σ} (hr : stopPhase F n nr sm s = some r) (hs : I s) : I r.2 := by
  unfold stopPhase at hr
  have h1 := ht.stop s sm hs
  generalize F.stop nr s sm = q at h1 hr
  obtain ⟨q, s'⟩ := q
  cases q with
  | error e => cases hr; exact h1
  | ok q =>
    split at hr
    · rename_i e; cases e
    · rename_i e; cases e; cases hr; exact h1
    · rename_i r' s'' _ e
      cases e
      split at hr
      · cases hr; exact h1
      · cases ht' : targetToIndex F.toBFlow q.parts.2.2 nr with
        | error e => rw [ht'] at hr; cases hr; exact h1
        | ok i =>
          rw [ht'] at hr
          simp only at hr
          cases ho : executeSeq F.toBFlow none n i q.parts.1 q.parts.2.1 s' with
          | none => rw [ho] at hr; cases hr
          | some o =>
            rw [ho] at hr
            have h2 := executeSeq_keeps h ho h1
            simp only at hr
            split at hr
            · cases hr; exact h2
            · split at hr <;> (cases hr; exact h2)
            · cases hr; exact h2

theorem singlePhase_keeps {F : TFlow σ A V} {I : σ → Prop} {nr : Nat} (h : Keeps F I) (ht : KeepsTrain F I nr) {n : Nat}
    {ks : List (Option A × Option (Msg V))} {sm : Option (Msg V)} {s : σ} {r : Except Err Unit × σ}
    (hr : singlePhase F n nr ks sm s = some r) (hs : I s) : I r.2 := by
  unfold singlePhase at hr
  cases hc : trainChunks F n nr ks s with
  | none => rw [hc] at hr; cases hr
  | some q =>
    have h1 := trainChunks_keeps h ht _ _ _ hc hs
    obtain ⟨q, s'⟩ := q
    rw [hc] at hr
    cases q with
    | error e => cases hr; exact h1
    | ok u =>
      simp only at hr
      split at hr
      · cases hr; exact h1
      · exact stopPhase_keeps h ht hr h1

theorem phases_keeps {F : TFlow σ A V} {I : σ → Prop} {nr : Nat} (h : Keeps F I) (ht : KeepsTrain F I nr) {n : Nat}
    {ks : List (Option A × Option (Msg V))} {sm : Option (Msg V)} :
    ∀ k s r, phases F n nr ks sm k s = some r → I s → I r.2 ∧ (r.1 = .ok () → F.remaining nr r.2 = 0) := by
  intro k
  induction k with
  | zero => intro s r hr; cases hr
  | succ k ih =>
    intro s r hr hs
    unfold phases at hr
    split at hr
    · rename_i h0
      cases hr
      exact ⟨hs, fun _ => h0⟩
    · cases hc : singlePhase F n nr ks sm s with
      | none => rw [hc] at hr; cases hr
      | some q =>
        have h1 := singlePhase_keeps h ht hc hs
        obtain ⟨q, s'⟩ := q
        rw [hc] at hr
        cases q with
        | error e => cases hr; exact ⟨h1, by simp⟩
        | ok u => exact ih _ _ hr (h.reset _ h1)

/-! ### C97: order and completeness -/

/-- Nothing that happens to a flow gives a node back a phase it has completed. -/
structure Mono (F : TFlow σ A V) : Prop where
  exec : ∀ i j s x m, F.remaining i (F.exec j s x m).2 ≤ F.remaining i s
  plain : ∀ i j s x, F.remaining i (F.plain j s x).2 ≤ F.remaining i s
  reset : ∀ i s, F.remaining i (F.reset s) ≤ F.remaining i s
  train : ∀ i j s x m, F.remaining i (F.train j s x m).2 ≤ F.remaining i s
  plainTrain : ∀ i j s x, F.remaining i (F.plainTrain j s x).2 ≤ F.remaining i s
  stop : ∀ i j s m, F.remaining i (F.stop j s m).2 ≤ F.remaining i s

/-- All trainable nodes before position `i` have completed their training. -/
def Finished (F : TFlow σ A V) (i : Nat) (s : σ) : Prop := ∀ j, j < i → F.trainable j = true → F.remaining j s = 0

/-- What the training keeps if training a node, and ending its phases, keeps it under the condition that all nodes before
it have completed their training. -/
structure Ordered (F : TFlow σ A V) (I : σ → Prop) : Prop extends Keeps F I where
  train : ∀ i s x m, i < F.len → Finished F i s → I s → I (F.train i s x m).2
  plainTrain : ∀ i s x, i < F.len → Finished F i s → I s → I (F.plainTrain i s x).2
  stop : ∀ i s m, i < F.len → Finished F i s → I s → I (F.stop i s m).2

theorem Mono.finished {F : TFlow σ A V} (hm : Mono F) {I : σ → Prop} (h : Ordered F I) (i : Nat) (hi : i < F.len) :
    Keeps F (fun s => I s ∧ Finished F i s) ∧ KeepsTrain F (fun s => I s ∧ Finished F i s) i := by
  have key : ∀ s s', (∀ j, F.remaining j s' ≤ F.remaining j s) → Finished F i s → Finished F i s' := by
    intro s s' hle hf j hj ht
    have := hle j
    have := hf j hj ht
    omega
  refine ⟨⟨?_, ?_, ?_⟩, ⟨?_, ?_, ?_⟩⟩
  · exact fun j s x m hs => ⟨h.exec j s x m hs.1, key _ _ (fun k => hm.exec k j s x m) hs.2⟩
  · exact fun j s x hs => ⟨h.plain j s x hs.1, key _ _ (fun k => hm.plain k j s x) hs.2⟩
  · exact fun s hs => ⟨h.reset s hs.1, key _ _ (fun k => hm.reset k s) hs.2⟩
  · exact fun s x m hs => ⟨h.train i s x m hi hs.2 hs.1, key _ _ (fun k => hm.train k i s x m) hs.2⟩
  · exact fun s x hs => ⟨h.plainTrain i s x hi hs.2 hs.1, key _ _ (fun k => hm.plainTrain k i s x) hs.2⟩
  · exact fun s m hs => ⟨h.stop i s m hi hs.2 hs.1, key _ _ (fun k => hm.stop k i s m) hs.2⟩

theorem trainNodes_ordered {F : TFlow σ A V} (hm : Mono F) {I : σ → Prop} (h : Ordered F I) {n : Nat}
    {data : Nat → List (Option A × Option (Msg V))} {stops : Nat → Option (Msg V)} {after : Nat → σ → Except Err Unit × σ}
    (ha : ∀ i s, I s → I (after i s).2) (ha' : ∀ j i s, F.remaining j (after i s).2 ≤ F.remaining j s) :
    ∀ k i s r, i + k = F.len → trainNodes F n data stops after i k s = some r → I s → Finished F i s →
      I r.2 ∧ (r.1 = .ok () → Finished F F.len r.2) := by
  intro k
  induction k with
  | zero =>
    intro i s r hi hr hs hf
    cases hr
    exact ⟨hs, fun _ => by rw [← hi]; exact hf⟩
  | succ k ih =>
    intro i s r hi hr hs hf
    unfold trainNodes at hr
    obtain ⟨K1, K2⟩ := hm.finished h i (by omega)
    have node : ∀ q, trainNode F n i (data i) (stops i) s = some q → (I q.2 ∧ Finished F i q.2) ∧
        (q.1 = .ok () → Finished F (i + 1) q.2) := by
      intro q hq
      unfold trainNode at hq
      by_cases ht : F.trainable i = true
      · rw [if_pos ht] at hq
        obtain ⟨g1, g2⟩ := phases_keeps K1 K2 n s q hq ⟨hs, hf⟩
        refine ⟨g1, fun e j hj htj => ?_⟩
        by_cases hji : j = i
        · rw [hji]; exact g2 e
        · exact g1.2 j (by omega) htj
      · rw [if_neg ht] at hq
        cases hq
        refine ⟨⟨hs, hf⟩, fun _ j hj htj => ?_⟩
        by_cases hji : j = i
        · exact absurd (hji ▸ htj) ht
        · exact hf j (by omega) htj
    cases hc : trainNode F n i (data i) (stops i) s with
    | none => rw [hc] at hr; cases hr
    | some q =>
      obtain ⟨g1, g2⟩ := node q hc
      obtain ⟨q, s'⟩ := q
      rw [hc] at hr
      cases q with
      | error e => cases hr; exact ⟨g1.1, by simp⟩
      | ok u =>
        simp only at hr g1 g2
        have hI := ha i s' g1.1
        have hF : Finished F (i + 1) (after i s').2 := by
          intro j hj htj
          have := ha' j i s'
          have := g2 trivial j hj htj
          omega
        generalize after i s' = z at hI hF hr
        obtain ⟨z, s''⟩ := z
        cases z with
        | error e => cases hr; exact ⟨hI, by simp⟩
        | ok u => exact ih (i + 1) s'' r (by omega) hr hI hF

/-- **C97.** `BiFlow.train`, on any data and messages and with any jumps the nodes ask for, trains a node (and ends its
phases) only when all trainable nodes before it have completed their training: it keeps everything that is kept under
that condition, whether it returns or raises. And if it returns, all trainable nodes have completed their training. -/
theorem train_in_order {F : TFlow σ A V} (hm : Mono F) {I : σ → Prop} (h : Ordered F I) {n : Nat}
    {data : Nat → List (Option A × Option (Msg V))} {stops : Nat → Option (Msg V)} {s : σ} {r : Except Err Unit × σ}
    (hr : trainFlow F n data stops s = some r) (hs : I s) :
    I r.2 ∧ (r.1 = .ok () → ∀ i, i < F.len → F.trainable i = true → F.remaining i r.2 = 0) := by
  unfold trainFlow at hr
  exact trainNodes_ordered hm h (fun _ _ h => h) (fun _ _ _ => Nat.le_refl _) F.len 0 _ r (by omega) hr
    (h.reset s hs) (fun j hj => by omega)

/-- A flow of two nodes with two and one phases. The state: phases left, and the log of the trained nodes. -/
def logFlow : TFlow ((Nat → Nat) × List Nat) Nat Unit where
  len := 2
  isBi := fun j => j == 0
  exec := fun _ s x _ => (.ok (.single x), s)
  plain := fun _ s x => (.ok x, s)
  hasId := fun _ _ => false
  reset := fun s => s
  trainable := fun _ => true
  remaining := fun i s => s.1 i
  train := fun i s _ _ => (.ok (.single none), (s.1, s.2 ++ [i]))
  plainTrain := fun i s _ => (.ok (), (s.1, s.2 ++ [i]))
  stop := fun i s _ => (.ok (.single none), (fun j => if j = i then s.1 j - 1 else s.1 j, s.2))

/-- Non-vacuity of C97: the conditions hold, with the invariant that node 1 is only in the log if node 0 has no phase
left; and the training trains node 0 twice on two chunks and then node 1 once. -/
example : Mono logFlow ∧ Ordered logFlow (fun s => 1 ∈ s.2 → s.1 0 = 0) ∧
    (trainFlow logFlow 5 (fun _ => [(some 1, none), (some 2, none)]) (fun _ => none)
      ((fun i => if i = 0 then 2 else 1), [])).map (·.2.2) = some [0, 0, 0, 0, 1, 1] := by
  refine ⟨⟨?_, ?_, ?_, ?_, ?_, ?_⟩, ⟨⟨?_, ?_, ?_⟩, ?_, ?_, ?_⟩, by decide⟩
  · exact fun _ _ _ _ _ => Nat.le_refl _
  · exact fun _ _ _ _ => Nat.le_refl _
  · exact fun _ _ => Nat.le_refl _
  · exact fun _ _ _ _ _ => Nat.le_refl _
  · exact fun _ _ _ _ => Nat.le_refl _
  · intro i j s m
    simp only [logFlow]
    split <;> omega
  · exact fun _ _ _ _ h => h
  · exact fun _ _ _ h => h
  · exact fun _ h => h
  · intro i s x m hi hf hs hmem
    have hmem' : 1 ∈ s.2 ∨ 1 = i := by simpa [logFlow] using hmem
    rcases hmem' with h | rfl
    · exact hs h
    · exact hf 0 (by decide) rfl
  · intro i s x hi hf hs hmem
    have hmem' : 1 ∈ s.2 ∨ 1 = i := by simpa [logFlow] using hmem
    rcases hmem' with h | rfl
    · exact hs h
    · exact hf 0 (by decide) rfl
  · intro i s m hi hf hs hmem
    have := hs hmem
    simp only [logFlow]
    split <;> omega

/-! ### C98: training without jumps -/

/-- Training a node on data gives `g`, ending a phase gives `h`; neither asks for a continuation. -/
def Trains (F : TFlow σ A V) (g : Nat → σ → A → Except Err Unit × σ) (h : Nat → σ → Except Err Unit × σ) : Prop :=
  ∀ i, i < F.len → ∀ s,
    (∀ x, F.isBi i = true → F.train i s (some x) none =
      match g i s x with
      | (.ok (), s') => (.ok (.single none), s')
      | (.error e, s') => (.error e, s')) ∧
    (∀ x, F.isBi i = false → F.plainTrain i s (some x) = g i s x) ∧
    (F.stop i s none =
      match h i s with
      | (.ok (), s') => (.ok (.single none), s')
      | (.error e, s') => (.error e, s'))

/-- One phase of node `i`: every chunk goes through the nodes before it, then the node is trained on it; a reset after
every chunk; then the phase ends. -/
def phaseSpec (f : Nat → σ → A → Except Err A × σ) (g : Nat → σ → A → Except Err Unit × σ)
    (h : Nat → σ → Except Err Unit × σ) (reset : σ → σ) (i : Nat) : List A → σ → Except Err Unit × σ
  | [], s => h i s
  | x :: xs, s =>
    match chain f 0 i s x with
    | (.error e, s') => (.error e, s')
    | (.ok y, s') =>
      match g i s' y with
      | (.error e, s'') => (.error e, s'')
      | (.ok (), s'') => phaseSpec f g h reset i xs (reset s'')

/-- `k` phases, with a reset after each. -/
def phasesSpec (f : Nat → σ → A → Except Err A × σ) (g : Nat → σ → A → Except Err Unit × σ)
    (h : Nat → σ → Except Err Unit × σ) (reset : σ → σ) (i : Nat) (xs : List A) : Nat → σ → Except Err Unit × σ
  | 0, s => (.ok (), s)
  | k + 1, s =>
    match phaseSpec f g h reset i xs s with
    | (.error e, s') => (.error e, s')
    | (.ok (), s') => phasesSpec f g h reset i xs k (reset s')

/-- The nodes one after the other, each with as many phases as it has left. -/
def trainSpec (f : Nat → σ → A → Except Err A × σ) (g : Nat → σ → A → Except Err Unit × σ)
    (h : Nat → σ → Except Err Unit × σ) (reset : σ → σ) (trainable : Nat → Bool) (left : Nat → σ → Nat)
    (data : Nat → List A) : Nat → Nat → σ → Except Err Unit × σ
  | _, 0, s => (.ok (), s)
  | i, k + 1, s =>
    match (if trainable i then phasesSpec f g h reset i (data i) (left i s) s else (.ok (), s)) with
    | (.error e, s') => (.error e, s')
    | (.ok (), s') => trainSpec f g h reset trainable left data (i + 1) k s'

theorem executeSeq_upto {F : BFlow σ A V} {f : Nat → σ → A → Except Err A × σ} (h : Computes F f) {nr : Nat}
    (hnr : nr < F.len) :
    ∀ n i (x : A) s seen, i + n = nr → ∀ m, n + 1 ≤ m →
      ∃ o, runFuel (seqStep F (some nr)) m { i := .int i, x := some x, msg := none, s := s, seen := seen } = some o ∧
        (match chain f i n s x with
          | (.ok y, s') => o.res = .ok (.stop (some y) none) ∧ o.s = s'
          | (.error e, s') => o.res = .error e ∧ o.s = s') := by
  intro n
  induction n with
  | zero =>
    intro i x s seen hi m hm
    obtain ⟨m, rfl⟩ : ∃ m', m = m' + 1 := ⟨m - 1, by omega⟩
    have : seqStep F (some nr) { i := .int i, x := some x, msg := none, s := s, seen := seen } =
        .inr { res := .ok (.stop (some x) none), s := s, seen := seen } := by
      unfold seqStep
      simp only
      rw [if_pos]
      rw [← hi]; rfl
    rw [runFuel, this]
    exact ⟨_, rfl, rfl, rfl⟩
  | succ n ih =>
    intro i x s seen hi m hm
    obtain ⟨m, rfl⟩ : ∃ m', m = m' + 1 := ⟨m - 1, by omega⟩
    rw [chain, runFuel, seqStep_at F (show i < F.len by omega) (by intro e; cases e; omega)]
    simp only [runNode_computes h (show i < F.len by omega)]
    generalize f i s x = q
    obtain ⟨q, s'⟩ := q
    cases q with
    | error e => exact ⟨_, rfl, rfl, rfl⟩
    | ok y =>
      simp only [afterNode]
      rw [if_neg (by omega), if_neg (by omega)]
      exact ih (i + 1) y s' (seen ++ [i]) (by omega) m (by omega)

theorem trainChunk_simple {F : TFlow σ A V} {f : Nat → σ → A → Except Err A × σ} (hf : Computes F.toBFlow f)
    {g : Nat → σ → A → Except Err Unit × σ} {h : Nat → σ → Except Err Unit × σ} (ht : Trains F g h) {nr : Nat}
    (hnr : nr < F.len) {n : Nat} (hn : F.len ≤ n) (x : A) (s : σ) :
    trainChunk F n nr n (.int 0) (some x) none s =
      some (match chain f 0 nr s x with
        | (.error e, s') => (.error e, s')
        | (.ok y, s') => g nr s' y) := by
  obtain ⟨m, rfl⟩ : ∃ m, n = m + 1 := ⟨n - 1, by omega⟩
  obtain ⟨o, ho1, ho2⟩ := executeSeq_upto hf hnr nr 0 x s [] (by omega) (m + 1) (by omega)
  unfold trainChunk
  have : executeSeq F.toBFlow (some nr) (m + 1) (.int 0) (some x) none s = some o := ho1
  rw [this]
  simp only
  generalize chain f 0 nr s x = q at ho2
  obtain ⟨q, s'⟩ := q
  cases q with
  | error e =>
    simp only at ho2
    rw [ho2.1, ho2.2]
  | ok y =>
    simp only at ho2
    rw [ho2.1, ho2.2]
    simp only
    obtain ⟨t1, t2, _⟩ := ht nr hnr s'
    cases hb : F.isBi nr with
    | true =>
      simp only [if_true]
      rw [t1 y hb]
      generalize g nr s' y = q
      obtain ⟨q, s''⟩ := q
      cases q <;> rfl
    | false =>
      simp only [Bool.false_eq_true, if_false]
      rw [t2 y hb]
      generalize g nr s' y = q
      obtain ⟨q, s''⟩ := q
      cases q <;> rfl

theorem singlePhase_simple {F : TFlow σ A V} {f : Nat → σ → A → Except Err A × σ} (hf : Computes F.toBFlow f)
    {g : Nat → σ → A → Except Err Unit × σ} {h : Nat → σ → Except Err Unit × σ} (ht : Trains F g h) {nr : Nat}
    (hnr : nr < F.len) {n : Nat} (hn : F.len ≤ n) (xs : List A) (hx : xs ≠ []) (s : σ) :
    singlePhase F n nr (xs.map fun x => (some x, none)) none s = some (phaseSpec f g h F.reset nr xs s) := by
  have key : ∀ xs s, (match trainChunks F n nr (xs.map fun x => (some x, none)) s with
      | none => none
      | some (.error e, s') => some (.error e, s')
      | some (.ok (), s') => stopPhase F n nr none s') = some (phaseSpec f g h F.reset nr xs s) := by
    intro xs
    induction xs with
    | nil =>
      intro s
      simp only [List.map_nil, trainChunks, phaseSpec, stopPhase]
      rw [(ht nr hnr s).2.2]
      generalize h nr s = q
      obtain ⟨q, s''⟩ := q
      cases q <;> rfl
    | cons x xs ih =>
      intro s
      simp only [List.map_cons, trainChunks, phaseSpec]
      rw [trainChunk_simple hf ht hnr hn]
      generalize chain f 0 nr s x = q
      obtain ⟨q, s'⟩ := q
      cases q with
      | error e => rfl
      | ok y =>
        simp only
        generalize g nr s' y = q
        obtain ⟨q, s''⟩ := q
        cases q with
        | error e => rfl
        | ok u => exact ih _
  rw [← key xs s]
  unfold singlePhase
  generalize trainChunks F n nr (xs.map fun x => (some x, none)) s = q
  cases q with
  | none => rfl
  | some q =>
    obtain ⟨q, s'⟩ := q
    cases q with
    | error e => rfl
    | ok u =>
      simp only
      cases xs with
      | nil => exact absurd rfl hx
      | cons x xs => rfl

/-- The phases left: ending a phase takes one, nothing else does. -/
structure Counts (F : TFlow σ A V) (f : Nat → σ → A → Except Err A × σ) (g : Nat → σ → A → Except Err Unit × σ)
    (h : Nat → σ → Except Err Unit × σ) : Prop where
  exec : ∀ i j s x, F.remaining i (f j s x).2 = F.remaining i s
  train : ∀ i j s x, F.remaining i (g j s x).2 = F.remaining i s
  reset : ∀ i s, F.remaining i (F.reset s) = F.remaining i s
  stop : ∀ i s s', h i s = (.ok (), s') → F.remaining i s' = F.remaining i s - 1

theorem Counts.chain {F : TFlow σ A V} {f : Nat → σ → A → Except Err A × σ} {g : Nat → σ → A → Except Err Unit × σ}
    {h : Nat → σ → Except Err Unit × σ} (hc : Counts F f g h) (i : Nat) :
    ∀ n j s x, F.remaining i (Bi.chain f j n s x).2 = F.remaining i s := by
  intro n
  induction n with
  | zero => intro j s x; rfl
  | succ n ih =>
    intro j s x
    have := hc.exec i j s x
    rw [Bi.chain]
    generalize f j s x = q at this
    obtain ⟨q, s'⟩ := q
    cases q with
    | error e => exact this
    | ok y => exact (ih _ _ _).trans this

theorem Counts.phase {F : TFlow σ A V} {f : Nat → σ → A → Except Err A × σ} {g : Nat → σ → A → Except Err Unit × σ}
    {h : Nat → σ → Except Err Unit × σ} (hc : Counts F f g h) (i : Nat) :
    ∀ xs s s', phaseSpec f g h F.reset i xs s = (.ok (), s') → F.remaining i s' = F.remaining i s - 1 := by
  intro xs
  induction xs with
  | nil => exact fun s s' e => hc.stop i s s' e
  | cons x xs ih =>
    intro s s' e
    unfold phaseSpec at e
    have h1 := hc.chain i i 0 s x
    generalize Bi.chain f 0 i s x = q at h1 e
    obtain ⟨q, s1⟩ := q
    cases q with
    | error e' => cases e
    | ok y =>
      simp only at e h1
      have h2 := hc.train i i s1 y
      generalize g i s1 y = q at h2 e
      obtain ⟨q, s2⟩ := q
      cases q with
      | error e' => cases e
      | ok u =>
        simp only at e h2
        rw [ih _ _ e, hc.reset, h2, h1]

theorem phases_simple {F : TFlow σ A V} {f : Nat → σ → A → Except Err A × σ} (hf : Computes F.toBFlow f)
    {g : Nat → σ → A → Except Err Unit × σ} {h : Nat → σ → Except Err Unit × σ} (ht : Trains F g h)
    (hc : Counts F f g h) {nr : Nat} (hnr : nr < F.len) {n : Nat} (hn : F.len ≤ n) (xs : List A) (hx : xs ≠ []) :
    ∀ k s, F.remaining nr s < k →
      phases F n nr (xs.map fun x => (some x, none)) none k s =
        some (phasesSpec f g h F.reset nr xs (F.remaining nr s) s) := by
  intro k
  induction k with
  | zero => intro s hk; omega
  | succ k ih =>
    intro s hk
    unfold phases
    cases hr : F.remaining nr s with
    | zero => simp only [if_true]; rfl
    | succ l =>
      rw [if_neg (by omega), singlePhase_simple hf ht hnr hn xs hx]
      simp only [phasesSpec]
      have hp := hc.phase nr xs s
      generalize phaseSpec f g h F.reset nr xs s = q at hp
      obtain ⟨q, s'⟩ := q
      cases q with
      | error e => rfl
      | ok u =>
        simp only
        have h1 := hp s' rfl
        have h2 : F.remaining nr (F.reset s') = l := by rw [hc.reset, h1, hr]; rfl
        rw [ih _ (by omega), h2]

/-- **C98.** A flow whose nodes return data and neither messages nor targets, and whose training asks for no
continuation, is trained like a flow: node after node, every trainable node in as many phases as it has left, in every
phase on every chunk as it comes out of the nodes before it; the first failure ends the training. -/
theorem train_without_jumps {F : TFlow σ A V} {f : Nat → σ → A → Except Err A × σ} (hf : Computes F.toBFlow f)
    {g : Nat → σ → A → Except Err Unit × σ} {h : Nat → σ → Except Err Unit × σ} (ht : Trains F g h)
    (hc : Counts F f g h) {n : Nat} (hn : F.len ≤ n) (hb : ∀ i s, F.remaining i s < n) (data : Nat → List A)
    (hd : ∀ i, i < F.len → F.trainable i = true → data i ≠ []) (s : σ) :
    trainFlow F n (fun i => (data i).map fun x => (some x, none)) (fun _ => none) s =
      some (trainSpec f g h F.reset F.trainable F.remaining data 0 F.len (F.reset s)) := by
  have key : ∀ k i s, i + k = F.len →
      trainNodes F n (fun i => (data i).map fun x => (some x, none)) (fun _ => none) (fun _ s => (.ok (), s)) i k s =
        some (trainSpec f g h F.reset F.trainable F.remaining data i k s) := by
    intro k
    induction k with
    | zero => intro i s _; rfl
    | succ k ih =>
      intro i s hi
      unfold trainNodes trainSpec trainNode
      cases htr : F.trainable i with
      | false => simp only [Bool.false_eq_true, if_false]; exact ih _ _ (by omega)
      | true =>
        simp only [if_true]
        rw [phases_simple hf ht hc (show i < F.len by omega) hn _ (hd i (by omega) htr) n s (hb i s)]
        generalize phasesSpec f g h F.reset i (data i) (F.remaining i s) s = q
        obtain ⟨q, s'⟩ := q
        cases q with
        | error e => rfl
        | ok u => exact ih _ _ (by omega)
  exact key F.len 0 (F.reset s) (by omega)

/-- Non-vacuity of C98: `logFlow` meets the conditions. -/
example : Computes logFlow.toBFlow (fun _ s x => (.ok x, s)) ∧
    Trains logFlow (fun i s _ => (.ok (), (s.1, s.2 ++ [i])))
      (fun i s => (.ok (), (fun j => if j = i then s.1 j - 1 else s.1 j, s.2))) ∧
    Counts logFlow (fun _ s (x : Nat) => (.ok x, s)) (fun i s _ => (.ok (), (s.1, s.2 ++ [i])))
      (fun i s => (.ok (), (fun j => if j = i then s.1 j - 1 else s.1 j, s.2))) := by
  refine ⟨fun j _ s x => ⟨fun _ => rfl, fun _ => rfl⟩, fun i _ s => ⟨fun x _ => rfl, fun x _ => rfl, rfl⟩,
    ⟨fun _ _ _ _ => rfl, fun _ _ _ _ => rfl, fun _ _ => rfl, ?_⟩⟩
  intro i s s' e
  cases e
  simp [logFlow]

/-- **C98**, error branch: a trainable node with a phase left and without data is an error, and its phase is not ended. -/
theorem train_no_data (F : TFlow σ A V) (n nr : Nat) (sm : Option (Msg V)) (s : σ) :
    singlePhase F n nr [] sm s = some (.error .biflow, s) := rfl

/-! ### C99: checkpoints -/

/-- **C99, violated.** A checkpoint function that returns nothing, like the one of the base class `CheckpointFunction`,
makes the training fail: whatever the flow, if the first node that has a checkpoint is trained without an error, the
training ends with a `TypeError`. -/
theorem checkpoint_none_fails {D : Type} (F : TFlow σ A V) (n : Nat) (data : Nat → List (Option A × Option (Msg V)))
    (stops : Nat → Option (Msg V)) (ck : Nat → Option (σ → CkRes D × σ)) (add : D → σ → σ) (s s1 s2 : σ)
    (hlen : 0 < F.len) (h1 : trainNode F n 0 (data 0) (stops 0) (F.reset s) = some (.ok (), s1))
    (fn : σ → CkRes D × σ) (h2 : ck 0 = some fn) (h3 : fn s1 = (.none, s2)) :
    trainCheckpoint F n data stops ck add s = some (.error .typeError, s2) := by
  unfold trainCheckpoint
  obtain ⟨l, hl⟩ : ∃ l, F.len = l + 1 := ⟨F.len - 1, by omega⟩
  rw [hl]
  unfold trainNodes
  rw [h1]
  simp only [checkpoint, h2, h3]

/-- **C99, partial**: without checkpoint functions, or if they all leave the flow alone and return a dictionary that adds
nothing, the training is that of a `BiFlow`. -/
theorem checkpoint_neutral_partial {D : Type} (F : TFlow σ A V) (n : Nat) (data : Nat → List (Option A × Option (Msg V)))
    (stops : Nat → Option (Msg V)) (ck : Nat → Option (σ → CkRes D × σ)) (add : D → σ → σ) (s : σ)
    (h : ∀ i fn, ck i = some fn → ∀ s, ∃ d, fn s = (.dict d, s) ∧ add d s = s) :
    trainCheckpoint F n data stops ck add s = trainFlow F n data stops s := by
  unfold trainCheckpoint trainFlow
  have : checkpoint ck add = fun _ s => (.ok (), s) := by
    funext i s
    unfold checkpoint
    cases hc : ck i with
    | none => rfl
    | some fn =>
      obtain ⟨d, e1, e2⟩ := h i fn hc s
      simp only [e1, e2]
  rw [this]

/-- Training with checkpoints that return dictionaries: after node `i` its checkpoint, if any, is called once with the
flow as it is then, and the dictionary is stored. -/
def checkpointSpec {D : Type} (train : Nat → σ → Option (Except Err Unit × σ)) (ck : Nat → Option (σ → D × σ))
    (add : D → σ → σ) : List Nat → σ → Option (Except Err Unit × σ)
  | [], s => some (.ok (), s)
  | i :: r, s => do
    let (q, s) ← train i s
    match q, ck i with
    | .error e, _ => some (.error e, s)
    | .ok (), none => checkpointSpec train ck add r s
    | .ok (), some fn => checkpointSpec train ck add r (add (fn s).1 (fn s).2)

/-- **C99, partial** (the condition is that every checkpoint function returns a dictionary): after every node its
checkpoint is called exactly once, and the dictionary it returns is stored; otherwise the training is that of a
`BiFlow`. -/
theorem checkpoint_dicts_partial {D : Type} (F : TFlow σ A V) (n : Nat) (data : Nat → List (Option A × Option (Msg V)))
    (stops : Nat → Option (Msg V)) (ck : Nat → Option (σ → D × σ)) (add : D → σ → σ) (s : σ) :
    trainCheckpoint F n data stops (fun i => (ck i).map fun fn s => (.dict (fn s).1, (fn s).2)) add s =
      checkpointSpec (fun i s => trainNode F n i (data i) (stops i) s) ck add (List.range F.len) (F.reset s) := by
  have key : ∀ k i s, trainNodes F n data stops
      (checkpoint (fun i => (ck i).map fun fn s => (.dict (fn s).1, (fn s).2)) add) i k s =
        checkpointSpec (fun i s => trainNode F n i (data i) (stops i) s) ck add (List.range' i k) s := by
    intro k
    induction k with
    | zero => intro i s; rfl
    | succ k ih =>
      intro i s
      rw [List.range'_succ]
      unfold trainNodes checkpointSpec
      cases trainNode F n i (data i) (stops i) s with
      | none => rfl
      | some q =>
        obtain ⟨q, s1⟩ := q
        cases q with
        | error e => rfl
        | ok u =>
          cases hc : ck i with
          | none =>
            simp only [checkpoint, hc, Option.map_none]
            exact ih _ _
          | some fn =>
            simp only [checkpoint, hc, Option.map_some]
            exact ih _ _
  unfold trainCheckpoint
  rw [key, List.range_eq_range']

/-- Non-vacuity: a checkpoint that stores the number of trainings so far behind the log. -/
example : (trainCheckpoint logFlow 5 (fun _ => [(some 1, none)]) (fun _ => none)
      (fun i => (if i = 0 then some (fun s : (Nat → Nat) × List Nat => (s.2.length, s)) else none).map fun fn s =>
        (.dict (fn s).1, (fn s).2)) (fun d s => (s.1, s.2 ++ [100 + d]))
      ((fun i => if i = 0 then 2 else 1), [])).map (fun r => (errOf r.1, r.2.2)) = some (none, [0, 0, 102, 1]) := by
  decide

/-- **C99, partial**: a checkpoint function is called when its node, and every trainable node before it, has completed its
training: everything that training keeps, and that the checkpoint functions keep under that condition, is kept. -/
theorem checkpoint_after_training_partial {D : Type} {F : TFlow σ A V} (hm : Mono F) {I : σ → Prop} (h : Ordered F I)
    {n : Nat} {data : Nat → List (Option A × Option (Msg V))} {stops : Nat → Option (Msg V)}
    {ck : Nat → Option (σ → CkRes D × σ)} {add : D → σ → σ}
    (hI : ∀ i s, Finished F (i + 1) s → I s → I (checkpoint ck add i s).2)
    (hR : ∀ j i s, F.remaining j (checkpoint ck add i s).2 ≤ F.remaining j s) {s : σ} {r : Except Err Unit × σ}
    (hr : trainCheckpoint F n data stops ck add s = some r) (hs : I s) :
    I r.2 ∧ (r.1 = .ok () → ∀ i, i < F.len → F.trainable i = true → F.remaining i r.2 = 0) := by
  have key : ∀ k i s r, i + k = F.len → trainNodes F n data stops (checkpoint ck add) i k s = some r → I s →
      Finished F i s → I r.2 ∧ (r.1 = .ok () → Finished F F.len r.2) := by
    intro k
    induction k with
    | zero =>
      intro i s r hi hr hs hf
      cases hr
      exact ⟨hs, fun _ => by rw [← hi]; exact hf⟩
    | succ k ih =>
      intro i s r hi hr hs hf
      unfold trainNodes at hr
      obtain ⟨K1, K2⟩ := hm.finished h i (by omega)
      have node : ∀ q, trainNode F n i (data i) (stops i) s = some q → (I q.2 ∧ Finished F i q.2) ∧
          (q.1 = .ok () → Finished F (i + 1) q.2) := by
        intro q hq
        unfold trainNode at hq
        by_cases ht : F.trainable i = true
        · rw [if_pos ht] at hq
          obtain ⟨g1, g2⟩ := phases_keeps K1 K2 n s q hq ⟨hs, hf⟩
          refine ⟨g1, fun e j hj htj => ?_⟩
          by_cases hji : j = i
          · rw [hji]; exact g2 e
          · exact g1.2 j (by omega) htj
        · rw [if_neg ht] at hq
          cases hq
          refine ⟨⟨hs, hf⟩, fun _ j hj htj => ?_⟩
          by_cases hji : j = i
          · exact absurd (hji ▸ htj) ht
          · exact hf j (by omega) htj
      cases hc : trainNode F n i (data i) (stops i) s with
      | none => rw [hc] at hr; cases hr
      | some q =>
        obtain ⟨g1, g2⟩ := node q hc
        obtain ⟨q, s'⟩ := q
        rw [hc] at hr
        cases q with
        | error e => cases hr; exact ⟨g1.1, by simp⟩
        | ok u =>
          simp only at hr g1 g2
          have hI' := hI i s' (g2 trivial) g1.1
          have hF : Finished F (i + 1) (checkpoint ck add i s').2 := by
            intro j hj htj
            have := hR j i s'
            have := g2 trivial j hj htj
            omega
          generalize checkpoint ck add i s' = z at hI' hF hr
          obtain ⟨z, s''⟩ := z
          cases z with
          | error e => cases hr; exact ⟨hI', by simp⟩
          | ok u => exact ih (i + 1) s'' r (by omega) hr hI' hF
  unfold trainCheckpoint at hr
  exact key F.len 0 _ r (by omega) hr (h.reset s hs) (fun j hj => by omega)

/-- Non-vacuity: a checkpoint that returns nothing ends the training of `logFlow` after its first node. -/
example : (trainCheckpoint logFlow 5 (fun _ => [(some 1, none)]) (fun _ => none)
      (fun i => if i = 0 then some (fun s => ((.none : CkRes Unit), s)) else none) (fun _ s => s)
      ((fun i => if i = 0 then 2 else 1), [])).map (fun r => (errOf r.1, r.2.2)) = some (some .typeError, [0, 0]) := by
  decide

end Bi
