/-!
# Model of `TemporaryDirectory` (mdp/utils/temporarydir.py), C296

A directory is the list of its entries: files (which the user may or may not be allowed to remove), directories, and symbolic links to directories
elsewhere. Links to files and links to nothing are removed like files. Simplifications: links lead to directories outside the temporary directory,
and links inside those are not followed; directories can be read; nothing else changes the file system meanwhile. -/

namespace Mdp.TempDir

/-- The entries of a directory, in the order of `listdir`. -/
inductive Dir where
  | nil
  | file (name : Nat) (locked : Bool) (rest : Dir)
  | sub (name : Nat) (d : Dir) (rest : Dir)
  | link (name : Nat) (target : Nat) (rest : Dir)
deriving DecidableEq

/-- What `_rmtree` leaves of a directory elsewhere. -/
def purge : Dir → Dir
  | .nil => .nil
  | .file n locked r => if locked then .file n locked (purge r) else purge r
  | .sub n d r => if purge d = .nil then purge r else .sub n (purge d) (purge r)
  | .link n t r => .link n t (purge r)

/-- The directories elsewhere. -/
abbrev Out := Nat → Dir

/-- `_rmtree` (70-88): what is left in the directory, and what is left elsewhere. `isdir` follows links, so that the directory a link leads to is emptied; then
`rmdir` of the link fails, and of the directory that contains it; the errors are ignored (85-88). -/
def rmtree : Dir → Out → Dir × Out
  | .nil, o => (.nil, o)
  | .file n locked r, o => let t := rmtree r o; (if locked then .file n locked t.1 else t.1, t.2)
  | .sub n d r, o =>
    let s := rmtree d o
    let t := rmtree r s.2
    (if s.1 = .nil then t.1 else .sub n s.1 t.1, t.2)
  | .link n k r, o =>
    let t := rmtree r (fun j => if j = k then purge (o j) else o j)
    (.link n k t.1, t.2)

/-- The file system and the object: the temporary directory (`none` when it is gone), the others, `_closed`. -/
structure State where
  dir : Option Dir
  out : Out
  closed : Bool

/-- `cleanup` (37-53); the exception for a directory that is gone is ignored. -/
def cleanup (s : State) : State :=
  if s.closed then s
  else match s.dir with
    | none => { s with closed := true }
    | some d =>
      let t := rmtree d s.out
      { dir := if t.1 = .nil then none else some t.1, out := t.2, closed := true }

/-! ## Specification -/

/-- Somewhere in the directory is a link to a directory. -/
def Dir.Links : Dir → Nat → Prop
  | .nil, _ => False
  | .file _ _ r, k => r.Links k
  | .sub _ d r, k => d.Links k ∨ r.Links k
  | .link _ t r, k => t = k ∨ r.Links k

/-- Somewhere in the directory is a file that cannot be removed. -/
def Dir.Locked : Dir → Prop
  | .nil => False
  | .file _ l r => l = true ∨ r.Locked
  | .sub _ d r => d.Locked ∨ r.Locked
  | .link _ _ r => r.Locked

theorem rmtree_out_keep (d : Dir) (o : Out) (k : Nat) (h : ¬ d.Links k) : (rmtree d o).2 k = o k := by
  induction d generalizing o with
  | nil => rfl
  | file n l r ih => exact ih o h
  | sub n d r ihd ihr =>
    simp only [rmtree]
    rw [ihr _ (fun hr => h (.inr hr)), ihd _ (fun hd => h (.inl hd))]
  | link n t r ih =>
    simp only [rmtree]
    rw [ih _ (fun hr => h (.inr hr))]
    rw [if_neg (fun e => h (.inl e.symm))]

theorem rmtree_nil_iff (d : Dir) (o : Out) : (rmtree d o).1 = .nil ↔ ¬ d.Locked ∧ ∀ k, ¬ d.Links k := by
  induction d generalizing o with
  | nil => simp [rmtree, Dir.Locked, Dir.Links]
  | file n l r ih =>
    cases l with
    | true => simp [rmtree, Dir.Locked]
    | false => simp [rmtree, Dir.Locked, Dir.Links, ih]
  | sub n d r ihd ihr =>
    simp only [rmtree, Dir.Locked, Dir.Links, not_or]
    by_cases hd : (rmtree d o).1 = .nil
    · rw [if_pos hd, ihr]
      have := (ihd o).1 hd
      exact ⟨fun h => ⟨⟨this.1, h.1⟩, fun k => ⟨this.2 k, h.2 k⟩⟩, fun h => ⟨h.1.2, fun k => (h.2 k).2⟩⟩
    · rw [if_neg hd]
      refine ⟨fun h => (nomatch h), fun h => absurd ((ihd o).2 ⟨h.1.1, fun k => (h.2 k).1⟩) hd⟩
  | link n t r ih =>
    refine ⟨fun h => (nomatch h), fun h => absurd (.inl rfl) (h.2 t)⟩

theorem purge_idem (d : Dir) : purge (purge d) = purge d := by
  induction d with
  | nil => rfl
  | file n l r ih => cases l <;> simp [purge, ih]
  | sub n d r ihd ihr =>
    simp only [purge]
    split
    · exact ihr
    · next h => simp only [purge, ihd, ihr, if_neg h]
  | link n t r ih => simp [purge, ih]

theorem rmtree_out_link (d : Dir) (o : Out) (k : Nat) (h : d.Links k) : (rmtree d o).2 k = purge (o k) := by
  induction d generalizing o with
  | nil => exact absurd h id
  | file n l r ih => exact ih o h
  | sub n d r ihd ihr =>
    simp only [rmtree]
    by_cases hr : r.Links k
    · rw [ihr _ hr]
      by_cases hd : d.Links k
      · rw [ihd _ hd, purge_idem]
      · rw [rmtree_out_keep _ _ _ hd]
    · rw [rmtree_out_keep _ _ _ hr]
      exact ihd _ (h.resolve_right hr)
  | link n t r ih =>
    simp only [rmtree]
    by_cases hr : r.Links k
    · rw [ih _ hr]
      split
      · rw [purge_idem]
      · rfl
    · rw [rmtree_out_keep _ _ _ hr]
      rw [if_pos (h.resolve_right hr).symm]

/-- C296: when the block is left the directory is gone, with everything in it, and nothing else is changed: if it contains no link to a directory and no file that cannot be
removed. -/
theorem tempdir_removed_partial (d : Dir) (o : Out) (h1 : ∀ k, ¬ d.Links k) (h2 : ¬ d.Locked) : cleanup ⟨some d, o, false⟩ = ⟨none, o, true⟩ := by
  have e : (rmtree d o).2 = o := funext fun k => rmtree_out_keep d o k (h1 k)
  simp only [cleanup, Bool.false_eq_true, if_false]
  rw [if_pos ((rmtree_nil_iff d o).2 ⟨h2, h1⟩), e]

/-- C296: exactly then it is gone. -/
theorem tempdir_gone_iff (d : Dir) (o : Out) : (cleanup ⟨some d, o, false⟩).dir = none ↔ ¬ d.Locked ∧ ∀ k, ¬ d.Links k := by
  rw [← rmtree_nil_iff d o]
  simp only [cleanup, Bool.false_eq_true, if_false]
  split
  · next h => exact ⟨fun _ => h, fun _ => rfl⟩
  · next h => exact ⟨fun h => (nomatch h), fun h' => absurd h' h⟩

/-- C296, false: a directory elsewhere to which a link in the temporary directory leads is emptied, as far as its files can be removed; the temporary directory remains; and
the object counts it as removed: it does not try again, and raises nothing. -/
theorem tempdir_link_violation (d : Dir) (o : Out) (k : Nat) (h : d.Links k) :
    (cleanup ⟨some d, o, false⟩).out k = purge (o k) ∧ (∃ d', (cleanup ⟨some d, o, false⟩).dir = some d') ∧ (cleanup ⟨some d, o, false⟩).closed = true := by
  have hn : (rmtree d o).1 ≠ .nil := fun e => ((rmtree_nil_iff d o).1 e).2 k h
  simp only [cleanup, Bool.false_eq_true, if_false]
  rw [if_neg hn]
  exact ⟨rmtree_out_link d o k h, ⟨_, rfl⟩, trivial⟩

/-- C296: what becomes of a directory elsewhere: files that can be removed are gone, at every depth. -/
theorem purge_removes (d : Dir) : purge d = .nil ↔ ¬ d.Locked ∧ ∀ k, ¬ d.Links k := by
  induction d with
  | nil => simp [purge, Dir.Locked, Dir.Links]
  | file n l r ih =>
    cases l with
    | true => simp [purge, Dir.Locked]
    | false => simpa [purge, Dir.Locked, Dir.Links] using ih
  | sub n d r ihd ihr =>
    simp only [purge, Dir.Locked, Dir.Links, not_or]
    by_cases hd : purge d = .nil
    · rw [if_pos hd, ihr]
      have := (ihd).1 hd
      exact ⟨fun h => ⟨⟨this.1, h.1⟩, fun k => ⟨this.2 k, h.2 k⟩⟩, fun h => ⟨h.1.2, fun k => (h.2 k).2⟩⟩
    · rw [if_neg hd]
      exact ⟨fun h => (nomatch h), fun h => absurd ((ihd).2 ⟨h.1.1, fun k => (h.2 k).1⟩) hd⟩
  | link n t r ih =>
    exact ⟨fun h => (nomatch h), fun h => absurd (.inl rfl) (h.2 t)⟩

/-- C296: only the first cleanup does something: leaving the block and the deletion of the object together are one removal. A directory made by someone else under the
same name meanwhile is left alone. -/
theorem tempdir_once (s : State) (d : Option Dir) : cleanup { cleanup s with dir := d } = { cleanup s with dir := d } := by
  have : (cleanup s).closed = true := by
    unfold cleanup
    split
    · assumption
    · split <;> rfl
  rw [cleanup]
  simp [this]

/-- A directory with a directory and two files, and one with a link to directory 7. -/
example : (∀ k, ¬ (Dir.sub 0 (.file 1 false .nil) (.file 2 false .nil)).Links k) ∧ ¬ (Dir.sub 0 (.file 1 false .nil) (.file 2 false .nil)).Locked := by
  simp [Dir.Links, Dir.Locked]
example : (cleanup ⟨some (.link 3 7 .nil), fun _ => .sub 5 (.file 1 false .nil) .nil, false⟩).out 7 = .nil := by decide

end Mdp.TempDir
