import Verif.CPrint.SepLemmas
import Verif.CPrint.StmtLemmas

/-!
# C62: the C text printed for a program is read back by a C compiler as that program
-/

namespace CPrint

theorem follow_nil : FollowD [] = true := rfl

theorem reads_of {α : Type} {l : List Piece} {f : Nat → List Tok → Option α} {a : α} (hs : Sep l none)
    (h : Ev fun n => f n (toks l) = some a) :
    ∃ ts, lex (text l).length (text l) = some ts ∧ ∃ N, ∀ n, N ≤ n → f n ts = some a :=
  ⟨toks l, lex_text l hs _ (Nat.le_refl _), h⟩

/-! ## A text has one reading -/

theorem agree {α : Type} {s : List Char} {f : Nat → List Tok → Option α} {a b : α}
    (h : ∃ ts, lex s.length s = some ts ∧ ∃ N, ∀ n, N ≤ n → f n ts = some a)
    (h' : ∃ ts, lex s.length s = some ts ∧ ∃ N, ∀ n, N ≤ n → f n ts = some b) : a = b := by
  obtain ⟨ts, e, N, h⟩ := h
  obtain ⟨ts', e', N', h'⟩ := h'
  rw [e] at e'
  cases e'
  have h1 := h (max N N') (by omega)
  rw [h' (max N N') (by omega)] at h1
  exact (Option.some.inj h1).symm

/-- C62.  A text is read as at most one function, one statement, one expression and one declared type. -/
theorem C62_reading_unique :
    (∀ s f f', ReadsFn s f → ReadsFn s f' → f = f') ∧ (∀ s c c', ReadsS s c → ReadsS s c' → c = c') ∧
      (∀ s e e', ReadsE s e → ReadsE s e' → e = e') ∧
      ∀ s x t x' t', ReadsTy s x t → ReadsTy s x' t' → x = x' ∧ t = t' := by
  refine ⟨fun s f f' h h' => ?_, fun s c c' h h' => ?_, fun s e e' h h' => ?_, fun s x t x' t' h h' => ?_⟩
  · exact (Prod.mk.inj (agree (f := parseFn) h h')).1
  · exact (Prod.mk.inj (agree (f := parseBlock) h h')).1
  · exact (Prod.mk.inj (agree (f := fun n => parseE n 6) h h')).1
  · have := agree (f := parseTy) h h'
    simp at this
    exact this

/-! ## Types, expressions, statements, functions -/

/-- C62.  The text of a declaration of a name with a type is read as that declaration. -/
theorem C62_declaration_partial (t : CTy) (h : t.ok = true) (x : Name) (hx : nameOk x = true) :
    ReadsTy (text (cdecl t [nm x])) (some x) t := by
  have := cdecl_ok t h [nm x] (some x) [] (Or.inl (dirOK_id x)) [] rfl
  rw [List.append_nil] at this
  exact reads_of (cdecl_sep t h _ (ds_name hx) _ (fun c h => by cases h)) this

/-- C62.  The text of a type without a name is read as that type. -/
theorem C62_type_partial (t : CTy) (h : t.absOk = true) : ReadsTy (text (nameType t)) none t := by
  have := cdecl_ok t (CTy.absOk_ok h).1 [] none [] (Or.inr ⟨(CTy.absOk_ok h).2, declOK_nil⟩) [] rfl
  rw [List.append_nil] at this
  exact reads_of (nameType_sep h _ (fun c h => by cases h)) this

/-- C62.  The text of an expression, printed for any context up to that of an operand of `|`, is read as that expression. -/
theorem C62_expression_partial (e : CE) (h : e.ok = true) (p : Nat) (hp : p ≤ 6) :
    ∃ e', SameE e e' ∧ ReadsE (text (expr p e)) e' := by
  have := printed0 h hp (rest := []) rfl
  rw [List.append_nil] at this
  exact ⟨canon e, canon_same e h, reads_of (f := fun n => parseE n 6)
    (expr_sep e h p (by omega) (by omega) none (KE.kp (fun c h => by cases h) p)) this⟩

/-- C62.  The text of a statement, in a block, is read as that statement. -/
theorem C62_statement_partial (s : CS) (h : s.ok = true) : ∃ s', Same s s' ∧ ReadsS (text (stmt s ++ [pn .rbrace])) s' := by
  obtain ⟨s', same, hp⟩ := (stmt_ok s h).block
  have := hp []
  refine ⟨s', same, reads_of (f := parseBlock) ?_ (by simpa using this)⟩
  rw [sep_append, sep_quiet rfl]
  exact ⟨stmt_sep s h _, trivial⟩

/-- C62.  The text of a function definition is read as the definition of that function: its name, type, parameters, variables
and a body that is the same. -/
theorem C62_function_partial (f : CFn) (h : f.ok = true) :
    ∃ s, Same f.body s ∧ ReadsFn (text (function f)) {f with body := s} := by
  obtain ⟨s, same, hp⟩ := function_ok f h
  exact ⟨s, same, reads_of (function_sep f h _) hp⟩

/-! ## What the body read means -/

theorem sameE_den (M : Meaning) : ∀ {e e' : CE}, SameE e e' → e.den M = e'.den M := by
  intro e e' h
  induction h with
  | refl => rfl
  | trans _ _ h1 h2 => exact h1.trans h2
  | int h1 h2 => exact (M.negInt _ h1 h2).symm
  | long h1 h2 => exact (M.negLong _ h1 h2).symm
  | fnCast a as va r => exact M.fnCast _ _ _ _
  | _ => simp_all [CE.den]

theorem sameEs_den (M : Meaning) : ∀ {es es' : List CE}, SameEs es es' → es.map (CE.den M) = es'.map (CE.den M) := by
  intro es es' h
  induction h with
  | nil => rfl
  | cons h _ ih => simp [sameE_den M h, ih]

mutual
theorem same_exec (M : Meaning) : ∀ {s s' : CS}, Same s s' → ∀ σ, s.exec M σ = s'.exec M σ
  | _, _, .refl s, σ => rfl
  | _, _, .symm h, σ => (same_exec M h σ).symm
  | _, _, .trans h h', σ => (same_exec M h σ).trans (same_exec M h' σ)
  | _, _, .assign h h', σ => by simp [CS.exec, sameE_den M h, sameE_den M h']
  | _, _, .set x h, σ => by simp [CS.exec, sameE_den M h]
  | _, _, .temp x e, σ => by simp [CS.exec, CE.den, M.assignTemp]
  | _, _, .call r h h', σ => by simp only [CS.exec, sameE_den M h, sameEs_den M h']
  | _, _, .ret h, σ => by simp [CS.exec, sameE_den M h]
  | _, _, .seq h h', σ => by
    simp only [CS.exec, same_exec M h σ]
    split
    · exact same_exec M h' _
    · rfl
  | _, _, .assoc a b c, σ => by
    simp only [CS.exec]
    rcases a.exec M σ with _ | ⟨_ | _ | _, σ'⟩ <;> rfl
  | _, _, .skipL a, σ => by simp [CS.exec]
  | _, _, .skipR a, σ => by
    simp only [CS.exec]
    rcases a.exec M σ with _ | ⟨_ | _ | _, σ'⟩ <;> rfl
  | _, _, .ite h h1 h2, σ => by
    simp only [CS.exec, sameE_den M h, same_exec M h1, same_exec M h2]
  | _, _, .not e a, σ => by
    simp only [CS.exec, CE.den, M.not]
    rcases M.truth (e.den M) σ with _ | _ | _ <;> rfl
  | _, _, .switch h hl, σ => by
    simp only [CS.exec, sameE_den M h, sameL_from M hl]
theorem sameL_from (M : Meaning) : ∀ {ls ls' : LS}, SameL ls ls' → ∀ z σ, ls.from M z σ = ls'.from M z σ
  | _, _, .nil, z, σ => rfl
  | _, _, .cons l h hl, z, σ => by
    simp only [LS.from, same_exec M h σ, sameL_from M hl z σ, sameL_all M hl]
theorem sameL_all (M : Meaning) : ∀ {ls ls' : LS}, SameL ls ls' → ∀ σ, ls.all M σ = ls'.all M σ
  | _, _, .nil, σ => rfl
  | _, _, .cons l h hl, σ => by
    simp only [LS.all, same_exec M h σ, sameL_all M hl]
end

/-- C62.  Whatever the printed text of a statement is read as does the same as the statement, whatever expressions,
assignments and calls mean. -/
theorem C62_statement_meaning_partial (s : CS) (h : s.ok = true) (M : Meaning) :
    (∃ s', ReadsS (text (stmt s ++ [pn .rbrace])) s') ∧
      ∀ s', ReadsS (text (stmt s ++ [pn .rbrace])) s' → ∀ σ, s'.exec M σ = s.exec M σ := by
  obtain ⟨s1, same, hr⟩ := C62_statement_partial s h
  refine ⟨⟨s1, hr⟩, fun s' h' σ => ?_⟩
  rw [C62_reading_unique.2.1 _ _ _ h' hr]
  exact (same_exec M same σ).symm

/-- C62.  Whatever the printed text of a function is read as has its name, type, parameters and variables, and a body that
does the same. -/
theorem C62_function_meaning_partial (f : CFn) (h : f.ok = true) :
    (∃ f', ReadsFn (text (function f)) f') ∧ ∀ f', ReadsFn (text (function f)) f' →
      f'.name = f.name ∧ f'.ret = f.ret ∧ f'.params = f.params ∧ f'.va = f.va ∧ f'.vars = f.vars ∧ f'.temps = f.temps ∧
        ∀ M σ, f'.body.exec M σ = f.body.exec M σ := by
  obtain ⟨s, same, hr⟩ := C62_function_partial f h
  refine ⟨⟨_, hr⟩, fun f' h' => ?_⟩
  rw [C62_reading_unique.1 _ _ _ h' hr]
  exact ⟨rfl, rfl, rfl, rfl, rfl, rfl, fun M σ => (same_exec M same σ).symm⟩

/-! ## Cases that meet the conditions -/

/-- A meaning that satisfies the laws: temporaries hold integers, everything else is zero. -/
def toyMeaning : Meaning where
  D := (Name → Int) → Int
  St := Name → Int
  var _ := fun _ => 0
  temp x := fun σ => σ x
  deref _ := fun _ => 0
  field _ _ := fun _ => 0
  cint n u := fun _ => if u = false ∧ 2 ^ 31 ≤ n then (n : Int) - 2 ^ 32 else n
  clong n u := fun _ => if u = false ∧ 2 ^ 63 ≤ n then (n : Int) - 2 ^ 64 else n
  unop o d := fun σ => match o with
    | .neg => -d σ
    | .notbool => if d σ = 0 then 1 else 0
    | .notint => -d σ - 1
  addrof _ := fun _ => 0
  binop o a b := fun σ => match o with
    | .add => a σ + b σ
    | .sub => a σ - b σ
    | .mul => a σ * b σ
    | .lt => if a σ < b σ then 1 else 0
    | _ => 0
  cast d _ := d
  sizeof _ := fun _ => 8
  alignof _ := fun _ => 8
  truth d σ := some (decide (d σ ≠ 0))
  index d σ := some (d σ)
  assign a d σ := some fun x => if a (fun y => if y = x then 1 else 0) = 1 then d σ else σ x
  set x d σ := some fun y => if y = x then d σ else σ y
  call _ _ _ σ := some σ
  negInt n h1 h2 := by
    funext σ
    have e1 : ¬ 2 ^ 31 ≤ 2 ^ 32 - n := by omega
    have e2 : 2 ^ 31 ≤ n := by omega
    simp only [e1, e2, and_false, if_false, and_true, if_true]
    omega
  negLong n h1 h2 := by
    funext σ
    have e1 : ¬ 2 ^ 63 ≤ 2 ^ 64 - n := by omega
    have e2 : 2 ^ 63 ≤ n := by omega
    simp only [e1, e2, and_false, if_false, and_true, if_true]
    omega
  not d σ := by by_cases h : d σ = 0 <;> simp [h]
  fnCast _ _ _ _ := rfl
  assignTemp x d σ := by
    congr 1
    funext y
    by_cases h : y = x
    · simp [h]
    · simp [h, Ne.symm h]

/-- `(*$x) - ($a - $b) * 3LL + -5LL < sizeof(value * ) | ...`: an expression with all kinds of nesting. -/
def someExpr : CE :=
  .binop .or (.binop .lt (.binop .add (.binop .sub (.deref (.temp ['x']))
      (.binop .mul (.binop .sub (.temp ['a']) (.temp ['b'])) (.clong 3 false))) (.clong (2 ^ 64 - 5) false))
      (.sizeof (.ptr (.base .value))))
    (.unop .neg (.field (.deref (.cast (.temp ['x']) (.ptr (.base (.struct ['s']))))) ['f']))

example : someExpr.ok = true := by decide

example : text (expr 0 someExpr) =
    "*$x - ($a - $b) * 3LL + -5LL < sizeof(value *) | -(*((struct s *) $x)).f".toList := by decide +kernel

/-- The type of a function that takes a function and an array of pointers: `value *(*f)(void (*)(int), value *[3])`
with the array passed as a pointer. -/
def someType : CTy :=
  .ptr (.fn (.cons (.ptr (.fn (.cons (.base .int) .nil) false (.base .void)))
    (.cons (.ptr (.arr (.ptr (.base .value)) 3)) .nil)) true (.ptr (.base .value)))

example : someType.ok = true ∧ someType.absOk = true := by decide

example : text (cdecl someType [nm ['f']]) = "value *(*f)(void (*)(int), value *(*)[3], ...)".toList := by decide +kernel

/-- A function with a `switch`, a call through a cast, a conditional without a first branch and an empty statement. -/
def someFn : CFn where
  name := "f_12".toList
  ret := .base .value
  params := [("tinfo".toList, .ptr (.base (.struct "thread_info".toList))), ("x_3".toList, .base .value)]
  va := false
  vars := [("roots".toList, .arr (.base .value) 2)]
  temps := [("y_4".toList, .base .value)]
  body := .seq (.ite (.binop .le (.clong 3 true) (.temp "x_3".toList)) .skip
      (.call (some "y_4".toList) (.cast (.temp "x_3".toList) (.ptr (.fn .nil false (.base .value))))
        [.temp "x_3".toList, .addrof (.var "roots".toList)]))
    (.seq (.seq .skip (.assign (.deref (.binop .add (.cast (.temp "y_4".toList) (.ptr (.base .value))) (.clong (2 ^ 64 - 1) false)))
        (.clong 1024 true)))
      (.switch (.binop .shr (.temp "x_3".toList) (.clong 1 false))
        (.cons (some 1) .skip (.cons (some (-2)) (.seq (.ret (some (.temp "y_4".toList))) .brk) (.cons none .brk .nil)))))

example : someFn.ok = true := by decide +kernel

example : text (function someFn) =
    ("value f_12(struct thread_info *$tinfo, value $x_3) { value roots[2]; register value $y_4; " ++
      "if (! (3LLU <= $x_3)) { $y_4 = ((value (*)(void)) $x_3)($x_3, &roots);} " ++
      "*((value *) $y_4 + -1LL) = 1024LLU; " ++
      "switch ($x_3 >> 1LL) { case 1: case -2: return $y_4; break; default: break; }}").toList := by decide +kernel

/-! ## What the conditions exclude -/

theorem noReading {α : Type} {s : List Char} {f : Nat → List Tok → Option α} (h : lex s.length s = none) (a : α) :
    ¬ ∃ ts, lex s.length s = some ts ∧ ∃ N, ∀ n, N ≤ n → f n ts = some a := by
  rintro ⟨ts, e, _⟩
  rw [h] at e
  cases e

/-- C62.  `-` before an expression that begins with `-`: `- (-x)` is printed `--$x`, which is not read as an expression of this
language (it is C's decrement); the same for a negative constant. -/
theorem C62_negation_refuted :
    (∀ e, ¬ ReadsE (text (expr 0 (.unop .neg (.unop .neg (.temp ['x']))))) e) ∧
      text (expr 0 (.unop .neg (.unop .neg (.temp ['x'])))) = "--$x".toList ∧
      ∀ e, ¬ ReadsE (text (expr 0 (.unop .neg (.cint (2 ^ 32 - 1) false)))) e := by
  refine ⟨fun e => noReading (f := fun n => parseE n 6) (by decide +kernel) _, by decide +kernel,
    fun e => noReading (f := fun n => parseE n 6) (by decide +kernel) _⟩

/-- C62.  A call through an expression with `*` is printed without parentheses: `( *x)(a)` becomes `*$x($a);`, where C applies
`*` to the result of the call.  It is not read as a statement of this language. -/
theorem C62_callee_refuted :
    text (stmt (.call none (.deref (.temp ['x'])) [.temp ['a']])) = "*$x($a);".toList ∧
      ∀ s, ¬ ReadsS (text (stmt (.call none (.deref (.temp ['x'])) [.temp ['a']]) ++ [pn .rbrace])) s := by
  refine ⟨by decide +kernel, ?_⟩
  rintro s ⟨ts, e, N, h⟩
  have e' : lex (text (stmt (.call none (.deref (.temp ['x'])) [.temp ['a']]) ++ [pn .rbrace])).length
      (text (stmt (.call none (.deref (.temp ['x'])) [.temp ['a']]) ++ [pn .rbrace])) =
      some [.p .star, .id ['$', 'x'], .p .lpar, .id ['$', 'a'], .p .rpar, .p .semi, .p .rbrace] := by decide +kernel
  rw [e'] at e
  cases e
  have := h (N + 10) (by omega)
  simp [parseBlock, parseS, parseSimple, parseE, loopF] at this

/-- C62.  A `switch` whose last case is empty is printed with a label before the closing brace, which C11 (6.8.1) does not
allow. -/
theorem C62_emptyCase_refuted :
    text (stmt (.switch (.temp ['x']) (.cons none .skip .nil))) = "switch ($x) { default: }".toList ∧
      ∀ s, ¬ ReadsS (text (stmt (.switch (.temp ['x']) (.cons none .skip .nil)) ++ [pn .rbrace])) s := by
  refine ⟨by decide +kernel, ?_⟩
  rintro s ⟨ts, e, N, h⟩
  have e' : lex (text (stmt (.switch (.temp ['x']) (.cons none .skip .nil)) ++ [pn .rbrace])).length
      (text (stmt (.switch (.temp ['x']) (.cons none .skip .nil)) ++ [pn .rbrace])) =
      some [.kw .switch, .p .lpar, .id ['$', 'x'], .p .rpar, .p .lbrace, .kw .default, .p .colon, .p .rbrace, .p .rbrace] := by
    decide +kernel
  rw [e'] at e
  cases e
  have := h (N + 20) (by omega)
  simp [parseBlock, parseS, parseE, loopF, loopE, binOf, parseCases, parseLabel, labelStart, parseItems, parseSimple] at this

/-- C62.  The least integers: the least `int` is printed `-2147483648`, which is `-` before a constant of type `long`; the least
`long long` is printed with a constant that has no type. -/
theorem C62_leastInteger_refuted :
    ReadsE (text (expr 0 (.cint (2 ^ 31) false))) (.unop .neg (.clong (2 ^ 31) false)) ∧
      ∀ e, ¬ ReadsE (text (expr 0 (.clong (2 ^ 63) false))) e := by
  constructor
  · refine ⟨[.p .minus, .num (2 ^ 31) .none], by decide +kernel, 20, fun n hn => ?_⟩
    obtain ⟨m, rfl⟩ := Nat.exists_eq_add_of_le hn
    rw [show 20 + m = m + 20 by omega]
    simp [parseE, loopE, loopF, litOf]
  · rintro e ⟨ts, h, N, hN⟩
    have e' : lex (text (expr 0 (.clong (2 ^ 63) false))).length (text (expr 0 (.clong (2 ^ 63) false))) =
        some [.p .minus, .num (2 ^ 63) .ll] := by decide +kernel
    rw [e'] at h
    cases h
    have := hN (N + 20) (by omega)
    simp [parseE, litOf] at this

/-- C62.  The type of a function is printed without a name as the type of a pointer to the function (in a cast this is what is
meant; `sizeof` would differ). -/
theorem C62_functionType_refuted :
    ReadsTy (text (nameType (.fn .nil false (.base .void)))) none (.ptr (.fn .nil false (.base .void))) :=
  C62_type_partial (.ptr (.fn .nil false (.base .void))) (by decide)

end CPrint
