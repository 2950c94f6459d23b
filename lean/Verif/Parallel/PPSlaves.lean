import Mathlib.Data.Nat.Digits.Lemmas
import Mathlib.Data.List.Basic

/-! # Remote slaves of the parallel python scheduler (C303, C304) -/

namespace Mdp.PPSlaves

/-! ## Model -/

abbrev Str := List Char

/-- The digit characters. -/
def digitChar (d : Nat) : Char := Char.ofNat (48 + d)

/-- `"%d" % n` for an integer. -/
def dec (n : Int) : Str :=
  if n < 0 then '-' :: ((Nat.digits 10 n.natAbs).reverse.map digitChar)
  else if n = 0 then ['0'] else (Nat.digits 10 n.natAbs).reverse.map digitChar

def isDigit (c : Char) : Bool := 48 ≤ c.toNat && c.toNat ≤ 57
def isSpace (c : Char) : Bool := c == ' ' || c == '\n' || c == '\t' || c == '\r'

def strip (s : Str) : Str := ((s.dropWhile isSpace).reverse.dropWhile isSpace).reverse

def natOf (s : Str) : Nat := Nat.ofDigits 10 (s.reverse.map fun c => c.toNat - 48)

/-- `int(s)`: white space around the number is skipped, a sign is allowed; `none`: ValueError. -/
def parseInt (s : Str) : Option Int :=
  match strip s with
  | '-' :: r => if r ≠ [] ∧ r.all isDigit then some (-(natOf r : Int)) else none
  | r => if r ≠ [] ∧ r.all isDigit then some (natOf r : Int) else none

/-- `s.split(c)`. -/
def splitOn (c : Char) : Str → List Str
  | [] => [[]]
  | x :: s =>
    if x = c then [] :: splitOn c s
    else match splitOn c s with
      | [] => [[x]]
      | p :: ps => (x :: p) :: ps

/-- The lines of a file, each with its newline. -/
def lines : Str → List Str
  | [] => []
  | x :: s =>
    if x = '\n' then ['\n'] :: lines s
    else match lines s with
      | [] => [[x]]
      | l :: ls => (x :: l) :: ls

/-- What happens outside of the process. -/
inductive Event where
  /-- an ssh process was started on this machine, for the address -/
  | ssh (address : Str)
  /-- the command `kill pid` was sent to the address -/
  | remoteKill (address : Str) (pid : Int)
  /-- a process of this machine was killed -/
  | localKill (pid : Int)
deriving DecidableEq

inductive Err where
  | unboundLocal
  | typeError
  | valueError
deriving DecidableEq

/-- The remote machines: whether a str can be written to the pipe of a subprocess (Python 2), and for an address
the pid of the ssh process and the first integer that comes back, or nothing when the connection fails. -/
structure Env where
  text : Bool
  reply : Str → Option (Int × Int)

/-- `start_slave`: the ssh process and the pid, or `None` when anything raised.  The ssh process has been started
in any case.
/repo/mdp/parallel/pp_support.py 231-275.  `"%d" % None` raises a TypeError, which the bare `except` catches; so does
writing a str to a binary pipe. -/
def startSlave (env : Env) (address : Str) (ncpus : Option Int) : Option (Int × Int) :=
  if !env.text then none
  else match ncpus with
    | none => none
    | some _ => env.reply address

/-- The line of the kill file.
/repo/mdp/parallel/pp_support.py 289-290. -/
def killLine (address : Str) (pid ssh : Int) : Str := address ++ ':' :: dec pid ++ ':' :: dec ssh ++ ['\n']

/-- What `_start_slaves` leaves behind: the kill file, the slaves it takes for running, and the outside world. -/
structure Started where
  file : Str
  running : List (Str × Int × Int)
  events : List Event
deriving DecidableEq

/-- The loop of `_start_slaves`; unpacking `None` raises a TypeError.
/repo/mdp/parallel/pp_support.py 277-294. -/
def startLoop (env : Env) : Started → List (Str × Option Int) → Started × Except Err Unit
  | st, [] => (st, .ok ())
  | st, (a, n) :: l =>
    let st := { st with events := st.events ++ [.ssh a] }
    match startSlave env a n with
    | none => (st, .error .typeError)
    | some (ssh, pid) =>
      startLoop env { file := st.file ++ killLine a pid ssh, running := st.running ++ [(a, pid, ssh)],
                      events := st.events } l

/-- The constructor up to the creation of the local server.  A given file name is not stored in the local variable
that the next line reads, and the default `None` for the slaves is not iterable.
/repo/mdp/parallel/pp_support.py 169-216. -/
def construct (env : Env) (slaves : Option (List (Str × Option Int))) (killFilename : Option Str) :
    Started × Except Err Unit :=
  match killFilename with
  | some _ => (⟨[], [], []⟩, .error .unboundLocal)
  | none =>
    match slaves with
    | none => (⟨[], [], []⟩, .error .typeError)
    | some l => startLoop env ⟨[], [], []⟩ l

/-- One line of `kill_slaves`.
/repo/mdp/parallel/pp_support.py 304-323. -/
def killOne (env : Env) (line : Str) : List Event × Except Err Unit :=
  match splitOn ':' line with
  | [a, p, q] =>
    match parseInt p with
    | none => ([], .error .valueError)
    | some pid =>
      match parseInt q with
      | none => ([], .error .valueError)
      | some ssh =>
        if !env.text then ([.ssh a], .error .typeError)
        else ([.ssh a, .remoteKill a pid, .localKill ssh], .ok ())
  | _ => ([], .error .valueError)

/-- `kill_slaves`.
/repo/mdp/parallel/pp_support.py 298-324. -/
def killLoop (env : Env) : List Str → List Event × Except Err Unit
  | [] => ([], .ok ())
  | l :: ls =>
    match killOne env l with
    | (e, .error x) => (e, .error x)
    | (e, .ok ()) => let r := killLoop env ls; (e ++ r.1, r.2)

def killSlaves (env : Env) (file : Str) : List Event × Except Err Unit := killLoop env (lines file)

/-! ## Characters and numbers -/

theorem digitChar_toNat {d : Nat} (h : d < 10) : (digitChar d).toNat = 48 + d := by
  unfold digitChar
  have : ∀ d, d < 10 → (Char.ofNat (48 + d)).toNat = 48 + d := by decide
  exact this d h

theorem isDigit_digitChar {d : Nat} (h : d < 10) : isDigit (digitChar d) = true := by
  unfold isDigit
  rw [digitChar_toNat h]
  simp
  omega

theorem digits_all (n : Nat) : ((Nat.digits 10 n).reverse.map digitChar).all isDigit = true := by
  rw [List.all_eq_true]
  intro c hc
  obtain ⟨d, hd, rfl⟩ := List.mem_map.1 hc
  exact isDigit_digitChar (Nat.digits_lt_base (by omega) (List.mem_reverse.1 hd))

theorem natOf_digits (n : Nat) : natOf ((Nat.digits 10 n).reverse.map digitChar) = n := by
  unfold natOf
  rw [← List.map_reverse, List.reverse_reverse, List.map_map]
  have : (Nat.digits 10 n).map ((fun c : Char => c.toNat - 48) ∘ digitChar) = (Nat.digits 10 n).map id := by
    refine List.map_congr_left fun d hd => ?_
    have h := Nat.digits_lt_base (b := 10) (by omega) hd
    simp only [Function.comp, digitChar_toNat h, id]
    omega
  rw [this, List.map_id, Nat.ofDigits_digits]

/-- The characters of a written number. -/
def numChar (c : Char) : Bool := isDigit c || c == '-'

theorem dec_chars (n : Int) : (dec n).all numChar = true ∧ dec n ≠ [] := by
  have hd := digits_all n.natAbs
  have hd' : ((Nat.digits 10 n.natAbs).reverse.map digitChar).all numChar = true := by
    rw [List.all_eq_true] at hd ⊢
    intro c hc
    simp [numChar, hd c hc]
  unfold dec
  split
  · refine ⟨?_, by simp⟩
    rw [List.all_cons, hd']
    decide
  · split
    · exact ⟨by decide, by decide⟩
    · refine ⟨hd', ?_⟩
      intro h
      have := congrArg List.length h
      simp only [List.length_map, List.length_reverse, List.length_nil, List.length_eq_zero_iff] at this
      have h0 : n.natAbs = 0 := Nat.digits_eq_nil_iff_eq_zero.1 this
      omega

theorem dropWhile_none {p : Char → Bool} {s : Str} (h : s.all (fun c => !p c) = true) : s.dropWhile p = s := by
  cases s with
  | nil => rfl
  | cons x s =>
    simp only [List.all_cons, Bool.and_eq_true, Bool.not_eq_true'] at h
    rw [List.dropWhile_cons_of_neg (by simp [h.1])]

theorem numChar_not_space {c : Char} (h : numChar c = true) : isSpace c = false := by
  unfold numChar at h
  rw [Bool.or_eq_true] at h
  cases hs : isSpace c with
  | false => rfl
  | true =>
    exfalso
    unfold isSpace at hs
    simp only [Bool.or_eq_true, beq_iff_eq] at hs
    rcases hs with ((rfl | rfl) | rfl) | rfl <;> revert h <;> decide

theorem all_not_space {s : Str} (h : s.all numChar = true) : s.all (fun c => !isSpace c) = true := by
  rw [List.all_eq_true] at h ⊢
  intro c hc
  rw [numChar_not_space (h c hc)]
  rfl

theorem strip_num {s : Str} (h : s.all numChar = true) (tl : Str) (ht : tl = [] ∨ tl = ['\n']) (hne : s ≠ []) :
    strip (s ++ tl) = s := by
  have hs := all_not_space h
  have hr : s.reverse.all (fun c => !isSpace c) = true := by
    rw [List.all_reverse]; exact hs
  unfold strip
  have h1 : (s ++ tl).dropWhile isSpace = s ++ tl := by
    cases s with
    | nil => exact absurd rfl hne
    | cons x s =>
      simp only [List.all_cons, Bool.and_eq_true, Bool.not_eq_true'] at hs
      rw [List.cons_append, List.dropWhile_cons_of_neg (by simp [hs.1])]
  rw [h1, List.reverse_append]
  rcases ht with rfl | rfl
  · rw [List.reverse_nil, List.nil_append, dropWhile_none hr, List.reverse_reverse]
  · rw [List.reverse_singleton, List.singleton_append, List.dropWhile_cons_of_pos (by decide),
      dropWhile_none hr, List.reverse_reverse]

/-- Reading back a written number, with or without the newline at the end. -/
theorem parseInt_dec (n : Int) (tl : Str) (ht : tl = [] ∨ tl = ['\n']) : parseInt (dec n ++ tl) = some n := by
  obtain ⟨h1, h2⟩ := dec_chars n
  unfold parseInt
  rw [strip_num h1 tl ht h2]
  unfold dec
  by_cases hn : n < 0
  · simp only [if_pos hn]
    have hne : (Nat.digits 10 n.natAbs).reverse.map digitChar ≠ [] := by
      intro h
      have := congrArg List.length h
      simp only [List.length_map, List.length_reverse, List.length_nil, List.length_eq_zero_iff] at this
      have h0 : n.natAbs = 0 := Nat.digits_eq_nil_iff_eq_zero.1 this
      omega
    rw [natOf_digits, if_pos ⟨hne, digits_all _⟩]
    congr 1
    omega
  · simp only [if_neg hn]
    by_cases h0 : n = 0
    · subst h0; decide
    · simp only [if_neg h0]
      have hne : (Nat.digits 10 n.natAbs).reverse.map digitChar ≠ [] := by
        intro h
        have := congrArg List.length h
        simp only [List.length_map, List.length_reverse, List.length_nil, List.length_eq_zero_iff] at this
        have h0 : n.natAbs = 0 := Nat.digits_eq_nil_iff_eq_zero.1 this
        omega
      have hd := digits_all n.natAbs
      have hnat := natOf_digits n.natAbs
      generalize (Nat.digits 10 n.natAbs).reverse.map digitChar = w at *
      cases w with
      | nil => exact absurd rfl hne
      | cons c w =>
        have hc : c ≠ '-' := by
          rintro rfl
          simp only [List.all_cons, Bool.and_eq_true] at hd
          exact absurd hd.1 (by decide)
        split
        · rename_i heq
          cases heq
          exact absurd rfl hc
        · rw [if_pos ⟨hne, hd⟩, hnat]
          congr 1; omega

/-! ## Lines and fields -/

theorem splitOn_clean {c : Char} {s : Str} (h : c ∉ s) : splitOn c s = [s] := by
  induction s with
  | nil => rfl
  | cons x s ih =>
    simp only [List.mem_cons, not_or] at h
    rw [splitOn, if_neg (fun e => h.1 e.symm), ih h.2]

theorem splitOn_sep {c : Char} {s : Str} (h : c ∉ s) (r : Str) : splitOn c (s ++ c :: r) = s :: splitOn c r := by
  induction s with
  | nil => simp [splitOn]
  | cons x s ih =>
    simp only [List.mem_cons, not_or] at h
    rw [List.cons_append, splitOn, if_neg (fun e => h.1 e.symm), ih h.2]

theorem splitOn_length (c : Char) (s : Str) : (splitOn c s).length = s.count c + 1 := by
  induction s with
  | nil => rfl
  | cons x s ih =>
    rw [splitOn]
    split
    · rename_i h; subst h; simp [ih]
    · rename_i h
      cases hs : splitOn c s with
      | nil => rw [hs] at ih; simp at ih
      | cons p ps => rw [hs] at ih; rw [List.count_cons_of_ne h]; simpa using ih

theorem lines_line {s : Str} (h : '\n' ∉ s) (r : Str) : lines (s ++ '\n' :: r) = (s ++ ['\n']) :: lines r := by
  induction s with
  | nil => simp [lines]
  | cons x s ih =>
    simp only [List.mem_cons, not_or] at h
    rw [List.cons_append, lines, if_neg (fun e => h.1 e.symm), ih h.2]
    simp

theorem num_not_mem {n : Int} {c : Char} (hc : numChar c = false) : c ∉ dec n := by
  intro h
  have := (dec_chars n).1
  rw [List.all_eq_true] at this
  rw [this c h] at hc
  cases hc

theorem killLine_lines {a : Str} (h : '\n' ∉ a) (p q : Int) (r : Str) :
    lines (killLine a p q ++ r) = killLine a p q :: lines r := by
  have hn : '\n' ∉ a ++ ':' :: dec p ++ ':' :: dec q := by
    simp only [List.append_assoc, List.mem_append, List.mem_cons, List.cons_append, not_or]
    exact ⟨h, by decide, num_not_mem (by decide), by decide, num_not_mem (by decide)⟩
  have := lines_line hn r
  unfold killLine
  rw [List.append_assoc _ ['\n'] r]
  exact this

theorem killLine_split {a : Str} (h : ':' ∉ a) (p q : Int) :
    splitOn ':' (killLine a p q) = [a, dec p, dec q ++ ['\n']] := by
  unfold killLine
  simp only [List.append_assoc, List.cons_append]
  rw [splitOn_sep h, splitOn_sep (num_not_mem (by decide)), splitOn_clean]
  simp only [List.mem_append, List.mem_singleton, not_or]
  exact ⟨num_not_mem (by decide), by decide⟩

theorem killOne_line {env : Env} (ht : env.text = true) {a : Str} (h : ':' ∉ a) (p q : Int) :
    killOne env (killLine a p q) = ([.ssh a, .remoteKill a p, .localKill q], .ok ()) := by
  unfold killOne
  have h1 := parseInt_dec p [] (.inl rfl)
  rw [List.append_nil] at h1
  rw [killLine_split h]
  simp only [h1, parseInt_dec q ['\n'] (.inr rfl), ht]
  rfl

/-! ## Specification -/

/-- The kill commands of a list of slaves, in order. -/
def killsOf (l : List (Str × Int × Int)) : List Event :=
  l.flatMap fun s => [.ssh s.1, .remoteKill s.1 s.2.1, .localKill s.2.2]

/-- An address that the format of the kill file can hold. -/
def Plain (a : Str) : Prop := ':' ∉ a ∧ '\n' ∉ a

/-! ## Theorems -/

theorem startLoop_spec (env : Env) (l : List (Str × Option Int)) (st : Started) :
    ∃ new : List (Str × Int × Int),
      (startLoop env st l).1.running = st.running ++ new ∧
      (startLoop env st l).1.file = st.file ++ new.flatMap (fun s => killLine s.1 s.2.1 s.2.2) ∧
      (∀ s ∈ new, ∃ n, (s.1, n) ∈ l ∧ env.reply s.1 = some (s.2.2, s.2.1)) ∧
      new.map (·.1) <+: l.map (·.1) ∧
      ((startLoop env st l).2 = .ok () ↔ new.length = l.length) := by
  induction l generalizing st with
  | nil => exact ⟨[], by simp [startLoop], by simp [startLoop], by simp, by simp, by simp [startLoop]⟩
  | cons x l ih =>
    obtain ⟨a, n⟩ := x
    unfold startLoop
    simp only
    cases hs : startSlave env a n with
    | none =>
      refine ⟨[], by simp, by simp, by simp, by simp, ?_⟩
      simp
    | some r =>
      obtain ⟨ssh, pid⟩ := r
      simp only
      obtain ⟨new, h1, h2, h3, h4, h5⟩ := ih
        ⟨st.file ++ killLine a pid ssh, st.running ++ [(a, pid, ssh)], st.events ++ [.ssh a]⟩
      have hr : env.reply a = some (ssh, pid) := by
        unfold startSlave at hs
        split at hs
        · cases hs
        · cases n with
          | none => cases hs
          | some k => exact hs
      refine ⟨(a, pid, ssh) :: new, ?_, ?_, ?_, ?_, ?_⟩
      · rw [h1]; simp
      · rw [h2]; simp
      · intro s hs'
        rcases List.mem_cons.1 hs' with rfl | hs'
        · exact ⟨n, by simp, hr⟩
        · obtain ⟨k, hk, hk'⟩ := h3 s hs'
          exact ⟨k, by simp [hk], hk'⟩
      · simpa using h4
      · rw [h5]; simp

/-- C303: `kill_slaves` on the kill file sends the kill command to exactly the slaves the scheduler took for
running, each with its own pid, and kills exactly their ssh connections, in the order in which they were started:
whether or not the constructor failed half-way, for every list of addresses without a colon or newline. -/
theorem kill_slaves_exact {env : Env} (ht : env.text = true) (slaves : List (Str × Option Int))
    (hp : ∀ s ∈ slaves, Plain s.1) :
    killSlaves env (construct env (some slaves) none).1.file =
      (killsOf (construct env (some slaves) none).1.running, .ok ()) := by
  simp only [construct]
  obtain ⟨new, h1, h2, h3, -, -⟩ := startLoop_spec env slaves ⟨[], [], []⟩
  rw [h1, h2]
  simp only [List.nil_append]
  have hnew : ∀ s ∈ new, Plain s.1 := by
    intro s hs
    obtain ⟨n, hn, -⟩ := h3 s hs
    exact hp _ hn
  clear h1 h2 h3
  unfold killSlaves
  induction new with
  | nil => rfl
  | cons s new ih =>
    have hs := hnew s (by simp)
    have := ih fun t h => hnew t (by simp [h])
    rw [List.flatMap_cons, killLine_lines hs.2, killLoop, killOne_line ht hs.1, this]
    simp [killsOf]

/-- C303: the slaves in the file are the first ones of the list, each with what its machine answered; all of them
when the constructor succeeds. -/
theorem started_slaves {env : Env} (slaves : List (Str × Option Int)) :
    (construct env (some slaves) none).1.running.map (·.1) <+: slaves.map (·.1) ∧
    (∀ s ∈ (construct env (some slaves) none).1.running, env.reply s.1 = some (s.2.2, s.2.1)) ∧
    ((construct env (some slaves) none).2 = .ok () →
      (construct env (some slaves) none).1.running.map (·.1) = slaves.map (·.1)) := by
  simp only [construct]
  obtain ⟨new, h1, -, h3, h4, h5⟩ := startLoop_spec env slaves ⟨[], [], []⟩
  rw [h1]
  simp only [List.nil_append]
  refine ⟨h4, fun s hs => (h3 s hs).choose_spec.2, fun h => ?_⟩
  refine h4.eq_of_length ?_
  simpa using h5.1 h

/-- C303: an address with a colon cannot be read back: nothing is sent for this slave and the ones after it. -/
theorem kill_slaves_colon_refused (env : Env) (a : Str) (h : ':' ∈ a) (hn : '\n' ∉ a) (p q : Int) (r : Str) :
    killSlaves env (killLine a p q ++ r) = ([], .error .valueError) := by
  unfold killSlaves
  rw [killLine_lines hn, killLoop]
  have hlen := splitOn_length ':' (killLine a p q)
  have hc : 3 ≤ (killLine a p q).count ':' := by
    unfold killLine
    have := List.one_le_count_iff.2 h
    simp only [List.count_append, List.count_cons, beq_self_eq_true, if_true]
    omega
  have h1 : killOne env (killLine a p q) = ([], .error .valueError) := by
    unfold killOne
    split
    · rename_i heq
      rw [heq] at hlen
      simp at hlen
      omega
    · rfl
  rw [h1]

/-- What one expects of the constructor: when every machine answers, all slaves are started, whatever kill file
name is given and whatever number of processes, or None for 'autodetect', is asked for. -/
def StartsAll (env : Env) : Prop :=
  ∀ (slaves : List (Str × Option Int)) (file : Option Str), (∀ s ∈ slaves, env.reply s.1 ≠ none) →
    (construct env (some slaves) file).2 = .ok ()

/-- C304, what holds: on Python 2, without a file name and with a number of processes for each slave. -/
theorem starts_all_partial {env : Env} (ht : env.text = true) (slaves : List (Str × Option Int))
    (hr : ∀ s ∈ slaves, env.reply s.1 ≠ none) (hn : ∀ s ∈ slaves, s.2 ≠ none) :
    (construct env (some slaves) none).2 = .ok () ∧
      (construct env (some slaves) none).1.running.map (·.1) = slaves.map (·.1) := by
  have h : (construct env (some slaves) none).2 = .ok () := by
    simp only [construct]
    generalize (⟨[], [], []⟩ : Started) = st
    induction slaves generalizing st with
    | nil => rfl
    | cons s l ih =>
      obtain ⟨a, n⟩ := s
      have h1 := hr (a, n) (by simp)
      have h2 := hn (a, n) (by simp)
      obtain ⟨k, rfl⟩ := Option.ne_none_iff_exists'.1 h2
      obtain ⟨r, hr'⟩ := Option.ne_none_iff_exists'.1 h1
      unfold startLoop
      simp only [startSlave, ht, Bool.not_true, Bool.false_eq_true, if_false]
      simp only at hr'
      rw [hr']
      exact ih (fun s hs => hr s (by simp [hs])) (fun s hs => hn s (by simp [hs])) _
  exact ⟨h, (started_slaves slaves).2.2 h⟩

/-- C304: under Python 3 no slave can be started: the first one makes the constructor raise, its ssh process is
left running and is in no file. -/
theorem python3_refused {env : Env} (ht : env.text = false) (a : Str) (n : Option Int) (l : List (Str × Option Int)) :
    construct env (some ((a, n) :: l)) none = (⟨[], [], [.ssh a]⟩, .error .typeError) := by
  simp [construct, startLoop, startSlave, ht]

/-- C304: the documented None for the number of processes is refused in the same way. -/
theorem autodetect_refused (env : Env) (a : Str) (l : List (Str × Option Int)) :
    construct env (some ((a, none) :: l)) none = (⟨[], [], [.ssh a]⟩, .error .typeError) := by
  unfold construct
  simp only [startLoop]
  have : startSlave env a none = none := by unfold startSlave; split <;> rfl
  rw [this]
  rfl

/-- C304: a name for the kill file is refused, before anything is started. -/
theorem kill_filename_refused (env : Env) (slaves : Option (List (Str × Option Int))) (f : Str) :
    construct env slaves (some f) = (⟨[], [], []⟩, .error .unboundLocal) := rfl

/-- C304: the claim is false for every environment. -/
theorem starts_all_false (env : Env) : ¬ StartsAll env := by
  intro h
  have := h [] (some []) (by simp)
  rw [kill_filename_refused] at this
  cases this

/-- C304: a slave whose start script failed answers with the number -1; it is taken for running. -/
theorem failed_script_taken_for_running {env : Env} (ht : env.text = true) (a : Str) (n ssh : Int)
    (hr : env.reply a = some (ssh, -1)) :
    (construct env (some [(a, some n)]) none).1.running = [(a, -1, ssh)] ∧
      (construct env (some [(a, some n)]) none).2 = .ok () := by
  simp [construct, startLoop, startSlave, ht, hr]

/-! ### Examples -/

/-- Two machines, `a` and `b`. -/
def exEnv : Env where
  text := true
  reply a := if a = ['a'] then some (11, 205) else if a = ['b'] then some (12, -1) else none

example : (construct exEnv (some [(['a'], some 2), (['b'], some 4)]) none).1.running =
    [(['a'], 205, 11), (['b'], -1, 12)] := by decide
example : (construct exEnv (some [(['a'], some 2), (['c'], some 4), (['b'], some 1)]) none).2 = .error .typeError ∧
    (construct exEnv (some [(['a'], some 2), (['c'], some 4), (['b'], some 1)]) none).1.running =
      [(['a'], 205, 11)] := by decide
example : killSlaves exEnv (construct exEnv (some [(['a'], some 2), (['b'], some 4)]) none).1.file =
    ([.ssh ['a'], .remoteKill ['a'] 205, .localKill 11, .ssh ['b'], .remoteKill ['b'] (-1), .localKill 12],
      .ok ()) := by
  rw [kill_slaves_exact rfl _ (by
    intro s hs
    simp only [List.mem_cons, List.not_mem_nil, or_false] at hs
    rcases hs with rfl | rfl <;> exact ⟨by decide, by decide⟩)]
  decide
example : killLine [':', ':', '1'] 7 8 = [':', ':', '1', ':', '7', ':', '8', '\n'] := by decide +kernel

end Mdp.PPSlaves
