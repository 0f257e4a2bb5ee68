import Mathlib.Data.List.Basic

/-!
# Sessions with `CertiRocq Eval`: the table of compiled terms

plugin/certirocq.ml:34-57 (names), 157-193 (tables), 894-937 (evaluation), plugin/g_certirocq.mlg:67-68, 214-242 (commands).
-/

namespace Reify

/-- Names of files and of constants. -/
abbrev Str := List Char

/-! ## Names -/

/-- certirocq.ml:35-57, `add` of increment_subscript. The string is read from its end: `id` is what is left of it, in reverse, `n` the number of 9s behind it; the result is
in reverse too. `none`: the assertion `carrypos > 0` fails, or the string is empty (index out of bounds). -/
def incAux : Str → Nat → Option Str
  | [], _ => none
  | c :: rest, n =>
    if c.isDigit then
      if c = '9' then if rest = [] then none else incAux rest (n + 1)
      else some (List.replicate n '0' ++ Char.ofNat (c.toNat + 1) :: rest)
    else some (if n = 0 then '0' :: c :: rest else '0' :: (List.replicate (n - 1) '0' ++ '1' :: c :: rest))

/-- certirocq.ml:35-57, increment_subscript. -/
def incrementSubscript (id : Str) : Option Str := (incAux id.reverse 0).map List.reverse

/-- certirocq.ml:894-899, next_string_away_from, find_fresh. `none`: an exception, or no result after `fuel` steps. -/
def findFresh : Nat → Str → List Str → Option Str
  | 0, _, _ => none
  | fuel + 1, s, bad => if s ∈ bad then (incrementSubscript s).bind fun s' => findFresh fuel s' bad else some s

/-- g_certirocq.mlg:236: the name of the n-th evaluation by the tactic. -/
def goalName (n : Nat) : Str := ['g', 'o', 'a', 'l'] ++ Nat.toDigits 10 n

/-! ## Sessions -/

variable {Tm Mp : Type}

/-- Compiled code: of a term, with an order of constructors (`Extract Inductives`). -/
structure Code (Tm Mp : Type) where
  term : Tm
  map : Mp
deriving DecidableEq

/-- The part of the state that Rocq restores when it goes back in a document or closes a section: the constants, the mapping
(certirocq.ml:138, 122) and the table of compiled terms (certirocq.ml:159-161, a `Summary.ref`). -/
structure Sum (Tm Mp : Type) where
  env : List (Str × Tm)
  map : Mp
  table : List (Str × Code Tm Mp)

/-- The whole state: `past` are earlier states Rocq can go back to; `all` (certirocq.ml:165), `counter` (g_certirocq.mlg:67) and the libraries loaded into the process stay. -/
structure Session (Tm Mp : Type) where
  now : Sum Tm Mp
  past : List (Sum Tm Mp)
  all : List Str
  counter : Nat
  loaded : List (Str × Code Tm Mp)

/-- Commands. -/
inductive Cmd (Tm Mp : Type)
  /-- A definition. -/
  | define (n : Str) (t : Tm)
  /-- `CertiRocq Extract Inductives`. -/
  | setMap (m : Mp)
  /-- Going back `k` commands, or closing a section opened there. -/
  | back (k : Nat)
  /-- `CertiRocq Eval n`. -/
  | eval (n : Str)
  /-- The tactic `certirocq_eval [-file f] t`. -/
  | tac (file : Option Str) (t : Tm)

/-- What a command shows: nothing, or the result of running `code`, read with mapping `map`. -/
inductive Shown (Tm Mp : Type)
  | nothing
  | error
  | value (asked : Tm) (code : Code Tm Mp) (map : Mp)

/-- The dynamic loader (`dlopen`, outside the repository): a path that was loaded before is not loaded again. -/
def load (l : List (Str × Code Tm Mp)) (f : Str) (c : Code Tm Mp) : Code Tm Mp := (l.lookup f).getD c

/-- certirocq.ml:919-925, eval, with 905-909 certirocq_eval, 833-892 certirocq_eval_named (compiling the term to a file of a fresh name, loading it, which calls
register_certirocq_run, 181-183 and 167-170) and 910-918 run_existing. The fuel suffices (`C68_fresh`). -/
def evalTerm (S : Session Tm Mp) (file : Str) (t : Tm) : Session Tm Mp × Shown Tm Mp :=
  match S.now.table.lookup file with
  | some code => (S, .value t code S.now.map)
  | none =>
    match findFresh (S.all.length + 1) file S.all with
    | none => (S, .error)
    | some f =>
      let code := load S.loaded f ⟨t, S.now.map⟩
      ({ S with
          now := { S.now with table := (file, code) :: S.now.table }
          all := file :: f :: S.all
          loaded := (f, code) :: S.loaded }, .value t code S.now.map)

/-- One command. Names of constants are printed with their module path, and are not defined twice (Rocq's kernel). -/
def Session.step (S : Session Tm Mp) : Cmd Tm Mp → Session Tm Mp × Shown Tm Mp
  | .define n t =>
    if '.' ∈ n ∧ n ∉ S.now.env.map Prod.fst then
      ({ S with now := { S.now with env := (n, t) :: S.now.env }, past := S.now :: S.past }, .nothing)
    else (S, .error)
  | .setMap m => ({ S with now := { S.now with map := m }, past := S.now :: S.past }, .nothing)
  | .back k => match S.past[k]? with
    | some s => ({ S with now := s, past := S.past.drop (k + 1) }, .nothing)
    | none => (S, .error)
  | .eval n => match S.now.env.lookup n with
    | some t => let r := evalTerm S n t; ({ r.1 with past := S.now :: r.1.past }, r.2)
    | none => (S, .error)
  | .tac file t =>
    let r := evalTerm { S with counter := S.counter + 1 } (file.getD (goalName S.counter)) t
    ({ r.1 with past := S.now :: r.1.past }, r.2)

/-- What a session shows. -/
def Session.run (S : Session Tm Mp) : List (Cmd Tm Mp) → List (Shown Tm Mp)
  | [] => []
  | c :: cs => (S.step c).2 :: (S.step c).1.run cs

/-- A new session. -/
def Session.init (m : Mp) : Session Tm Mp := ⟨⟨[], m, []⟩, [], [], 0, []⟩

end Reify
