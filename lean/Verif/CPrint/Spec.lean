import Verif.CPrint.Model

/-!
# Reading C text: specification

The part of the C standard the printed text is in: the lexer (C11 6.4, longest match), types (6.7.6, 6.7.7), expressions (6.5,
the levels of the grammar from `inclusive-OR` on) and statements (6.8), as a recursive-descent parser.  Every function takes
a bound on the depth of the recursion; a text is read as `e` if some bound gives `e`.  What is not in this part is an error.
Independent of the printer: the spelling of the words, the levels of the operators and the meaning of literals are given
here again.
-/

namespace CPrint

/-! ## Characters to tokens -/

/-- Reserved words (6.4.1), the typedef name `value` and the extension `__alignof__`. -/
def kwTable : List (List Char × Kw) :=
  [("void".toList, .void), ("value".toList, .value), ("signed".toList, .signed), ("unsigned".toList, .unsigned),
    ("char".toList, .char), ("short".toList, .short), ("int".toList, .int), ("_Bool".toList, .bool),
    ("float".toList, .float), ("double".toList, .double), ("long".toList, .long), ("struct".toList, .struct),
    ("union".toList, .union), ("sizeof".toList, .sizeof), ("__alignof__".toList, .alignof), ("if".toList, .if_),
    ("else".toList, .else_), ("switch".toList, .switch), ("case".toList, .case), ("default".toList, .default),
    ("break".toList, .brk), ("return".toList, .ret), ("register".toList, .register)]

/-- Punctuators (6.4.6, with digraphs; and `//`, which begins a comment to the end of the line); `none`: not part of what is
read here. -/
def pnTable : List (List Char × Option Pn) :=
  [(['.', '.', '.'], some .dots), (['<', '<', '='], none), (['>', '>', '='], none),
    (['<', '<'], some .shl), (['>', '>'], some .shr), (['<', '='], some .le), (['>', '='], some .ge),
    (['=', '='], some .eqeq), (['!', '='], some .ne), (['-', '>'], none), (['+', '+'], none), (['-', '-'], none),
    (['&', '&'], none), (['|', '|'], none), (['*', '='], none), (['/', '='], none), (['%', '='], none), (['+', '='], none),
    (['-', '='], none), (['&', '='], none), (['^', '='], none), (['|', '='], none), (['#', '#'], none),
    (['/', '/'], none), (['<', ':'], none), ([':', '>'], none), (['<', '%'], none), (['%', '>'], none), (['%', ':'], none),
    (['('], some .lpar), ([')'], some .rpar), (['['], some .lbrk), ([']'], some .rbrk), (['{'], some .lbrace),
    (['}'], some .rbrace), ([';'], some .semi), ([','], some .comma), ([':'], some .colon), (['.'], some .dot),
    (['='], some .assign), (['*'], some .star), (['/'], some .slash), (['%'], some .percent), (['+'], some .plus),
    (['-'], some .minus), (['<'], some .lt), (['>'], some .gt), (['&'], some .amp), (['^'], some .caret), (['|'], some .bar),
    (['!'], some .bang), (['~'], some .tilde), (['?'], none), (['#'], none)]

/-- A letter, `_`, or `$` (an extension). -/
def identStart (c : Char) : Bool := c.isAlpha || c == '_' || c == '$'

/-- A character inside an identifier. -/
def identChar (c : Char) : Bool := identStart c || c.isDigit

/-- A character inside a preprocessing number (6.4.8). -/
def numChar (c : Char) : Bool := identChar c || c == '.'

/-- Suffixes (6.4.4.1). -/
def sufOf : List Char → Option Suf
  | [] => some .none
  | ['U'] => some .u
  | ['L', 'L'] => some .ll
  | ['L', 'L', 'U'] => some .llu
  | _ => none

/-- A decimal number (6.4.4.1; a leading zero would make it octal). -/
def lexNum (s : List Char) : Option Tok :=
  let ds := s.takeWhile Char.isDigit
  if ds.head? = some '0' ∧ ds.length ≠ 1 then none
  else match sufOf (s.dropWhile Char.isDigit) with
    | some x => some (.num (Nat.ofDigitChars 10 ds 0) x)
    | none => none

/-- A word. -/
def lexWord (s : List Char) : Tok :=
  match kwTable.lookup s with
  | some k => .kw k
  | none => .id s

/-- The longest punctuator at the beginning (the table has the longer ones first). -/
def lexPn (s : List Char) : Option (List Char × Option Pn) := pnTable.find? fun e => e.1.isPrefixOf s

/-- What is behind the end of a comment. -/
def skipComment : List Char → Option (List Char)
  | '*' :: '/' :: s => some s
  | _ :: s => skipComment s
  | [] => none

/-- The tokens of a text. -/
def lex : Nat → List Char → Option (List Tok)
  | _, [] => some []
  | 0, _ => none
  | n + 1, c :: s =>
    if c = ' ' ∨ c = '\n' then lex n s
    else if c = '/' ∧ s.head? = some '*' then
      match skipComment (s.drop 1) with
      | some s' => lex n s'
      | none => none
    else if identStart c then
      (lex n (s.dropWhile identChar)).map (lexWord (c :: s.takeWhile identChar) :: ·)
    else if c.isDigit then
      match lexNum (c :: s.takeWhile numChar) with
      | some t => (lex n (s.dropWhile numChar)).map (t :: ·)
      | none => none
    else if c = '.' ∧ s.head?.any Char.isDigit then none
    else match lexPn (c :: s) with
      | some (l, some q) => (lex n ((c :: s).drop l.length)).map (.p q :: ·)
      | _ => none

/-! ## Types -/

/-- What a declarator says about a name, from the name outwards (6.7.6). -/
inductive Deriv
  | ptr
  | arr (n : Nat)
  | fn (ps : List (Option Name × CTy)) (va : Bool)

/-- A list of types. -/
def CTys.ofList : List CTy → CTys
  | [] => .nil
  | t :: ts => .cons t (ofList ts)

/-- A derived type. -/
def Deriv.app : Deriv → CTy → CTy
  | .ptr, t => .ptr t
  | .arr n, t => .arr t n
  | .fn ps va, t => .fn (CTys.ofList (ps.map (·.2))) va t

/-- The type of a name with these derivations of `t`. -/
def wrap (ds : List Deriv) (t : CTy) : CTy := ds.foldr Deriv.app t

/-- Type specifiers (6.7.2). -/
def parseBase : List Tok → Option (Base × List Tok)
  | .kw .void :: r => some (.void, r)
  | .kw .value :: r => some (.value, r)
  | .kw .signed :: .kw .char :: r => some (.schar, r)
  | .kw .unsigned :: .kw .char :: r => some (.uchar, r)
  | .kw .short :: r => some (.short, r)
  | .kw .unsigned :: .kw .short :: r => some (.ushort, r)
  | .kw .int :: r => some (.int, r)
  | .kw .unsigned :: .kw .int :: r => some (.uint, r)
  | .kw .bool :: r => some (.bool, r)
  | .kw .float :: r => some (.float, r)
  | .kw .double :: r => some (.double, r)
  | .kw .long :: .kw .long :: r => some (.llong, r)
  | .kw .unsigned :: .kw .long :: .kw .long :: r => some (.ullong, r)
  | .kw .struct :: .id s :: r => some (.struct s, r)
  | .kw .union :: .id s :: r => some (.union s, r)
  | _ => none

/-- Whether a type begins here. -/
def tyStart : List Tok → Bool
  | .kw .void :: _ | .kw .value :: _ | .kw .signed :: _ | .kw .unsigned :: _ | .kw .char :: _ | .kw .short :: _
  | .kw .int :: _ | .kw .bool :: _ | .kw .float :: _ | .kw .double :: _ | .kw .long :: _ | .kw .struct :: _
  | .kw .union :: _ => true
  | _ => false

mutual
/-- Specifiers and a declarator, with or without a name. -/
def parseTy : Nat → List Tok → Option (Option Name × CTy × List Tok)
  | 0, _ => none
  | n + 1, ts => match parseBase ts with
    | some (b, r) => match parseDecl n r with
      | some (x, ds, r') => some (x, wrap ds (.base b), r')
      | none => none
    | none => none
/-- Declarators (6.7.6, 6.7.7): `*` binds less than what follows the name. -/
def parseDecl : Nat → List Tok → Option (Option Name × List Deriv × List Tok)
  | 0, _ => none
  | n + 1, .p .star :: r => match parseDecl n r with
    | some (x, ds, r') => some (x, ds ++ [.ptr], r')
    | none => none
  | n + 1, ts => parseDirect n ts
/-- Direct declarators; a parenthesis before a type is a parameter list. -/
def parseDirect : Nat → List Tok → Option (Option Name × List Deriv × List Tok)
  | 0, _ => none
  | n + 1, .id x :: r => match parseSuf n r with
    | some (sf, r') => some (some x, sf, r')
    | none => none
  | n + 1, .p .lpar :: r =>
    if tyStart r then match parseSuf n (.p .lpar :: r) with
      | some (sf, r') => some (none, sf, r')
      | none => none
    else match parseDecl n r with
      | some (x, ds, .p .rpar :: r') => match parseSuf n r' with
        | some (sf, r'') => some (x, ds ++ sf, r'')
        | none => none
      | _ => none
  | n + 1, ts => match parseSuf n ts with
    | some (sf, r') => some (none, sf, r')
    | none => none
/-- Array bounds and parameter lists. -/
def parseSuf : Nat → List Tok → Option (List Deriv × List Tok)
  | 0, _ => none
  | n + 1, .p .lbrk :: .num k .none :: .p .rbrk :: r => match parseSuf n r with
    | some (sf, r') => some (.arr k :: sf, r')
    | none => none
  | n + 1, .p .lpar :: r => match parseParams n r with
    | some (ps, va, r') => match parseSuf n r' with
      | some (sf, r'') => some (.fn ps va :: sf, r'')
      | none => none
    | none => none
  | _ + 1, ts => some ([], ts)
/-- Parameters; `void` alone: none. -/
def parseParams : Nat → List Tok → Option (List (Option Name × CTy) × Bool × List Tok)
  | 0, _ => none
  | _ + 1, .kw .void :: .p .rpar :: r => some ([], false, r)
  | n + 1, ts => parsePList n ts
/-- At least one parameter. -/
def parsePList : Nat → List Tok → Option (List (Option Name × CTy) × Bool × List Tok)
  | 0, _ => none
  | n + 1, ts => match parseTy n ts with
    | some (x, t, .p .rpar :: r) => some ([(x, t)], false, r)
    | some (x, t, .p .comma :: .p .dots :: .p .rpar :: r) => some ([(x, t)], true, r)
    | some (x, t, .p .comma :: r) => match parsePList n r with
      | some (ps, va, r') => some ((x, t) :: ps, va, r')
      | none => none
    | _ => none
end

/-! ## Expressions -/

/-- The binary operators (6.5.5 to 6.5.12). -/
def binOf : Pn → Option BinOp
  | .star => some .mul | .slash => some .div | .percent => some .mod | .plus => some .add | .minus => some .sub
  | .shl => some .shl | .shr => some .shr | .lt => some .lt | .gt => some .gt | .le => some .le | .ge => some .ge
  | .eqeq => some .eq | .ne => some .ne | .amp => some .and | .caret => some .xor | .bar => some .or
  | _ => none

/-- Their level in the grammar, counted so that `inclusive-OR` is 6 and `multiplicative` 13. -/
def level : BinOp → Nat
  | .or => 6 | .xor => 7 | .and => 8 | .eq => 9 | .ne => 9 | .lt => 10 | .gt => 10 | .le => 10 | .ge => 10
  | .shl => 11 | .shr => 11 | .add => 12 | .sub => 12 | .mul => 13 | .div => 13 | .mod => 13

/-- A decimal literal (6.4.4.1): the first type of the list for its suffix that can represent it (`int` 32 bits, `long` and
`long long` 64); none if there is no such type. -/
def litOf (n : Nat) : Suf → Option CE
  | .none => if n < 2 ^ 31 then some (.cint n false) else if n < 2 ^ 63 then some (.clong n false) else none
  | .u => if n < 2 ^ 32 then some (.cint n true) else if n < 2 ^ 64 then some (.clong n true) else none
  | .ll => if n < 2 ^ 63 then some (.clong n false) else none
  | .llu => if n < 2 ^ 64 then some (.clong n true) else none

/-- An identifier; the names of temporaries begin with `$`. -/
def identOf : Name → CE
  | '$' :: x => .temp x
  | x => .var x

/-- Fields. -/
def loopF (e : CE) : List Tok → CE × List Tok
  | .p .dot :: .id f :: r => loopF (.field e f) r
  | ts => (e, ts)

mutual
/-- An expression of a level: 6 to 13 the binary operators, 14 casts, 15 unary, 16 postfix and primary. -/
def parseE : Nat → Nat → List Tok → Option (CE × List Tok)
  | 0, _, _ => none
  | n + 1, lvl, ts =>
    if lvl < 14 then match parseE n (lvl + 1) ts with
      | some (e, r) => loopE n lvl e r
      | none => none
    else if lvl = 14 then match ts with
      | .p .lpar :: r => if tyStart r then match parseTy n r with
          | some (none, t, .p .rpar :: r') => match parseE n 14 r' with
            | some (e, r'') => some (.cast e t, r'')
            | none => none
          | _ => none
        else parseE n 15 ts
      | _ => parseE n 15 ts
    else if lvl = 15 then match ts with
      | .p .star :: r => (parseE n 14 r).map fun x => (.deref x.1, x.2)
      | .p .amp :: r => (parseE n 14 r).map fun x => (.addrof x.1, x.2)
      | .p .minus :: r => (parseE n 14 r).map fun x => (.unop .neg x.1, x.2)
      | .p .bang :: r => (parseE n 14 r).map fun x => (.unop .notbool x.1, x.2)
      | .p .tilde :: r => (parseE n 14 r).map fun x => (.unop .notint x.1, x.2)
      | .kw .sizeof :: .p .lpar :: r => match parseTy n r with
        | some (none, t, .p .rpar :: r') => some (.sizeof t, r')
        | _ => none
      | .kw .alignof :: .p .lpar :: r => match parseTy n r with
        | some (none, t, .p .rpar :: r') => some (.alignof t, r')
        | _ => none
      | _ => parseE n 16 ts
    else match ts with
      | .id x :: r => some (loopF (identOf x) r)
      | .num k s :: r => (litOf k s).map fun e => loopF e r
      | .p .lpar :: r => match parseE n 6 r with
        | some (e, .p .rpar :: r') => some (loopF e r')
        | _ => none
      | _ => none
/-- What follows the first operand of a level: operators of that level associate to the left. -/
def loopE : Nat → Nat → CE → List Tok → Option (CE × List Tok)
  | 0, _, _, _ => none
  | n + 1, lvl, e, ts => match ts with
    | .p q :: r => match binOf q with
      | some b => if level b = lvl then match parseE n (lvl + 1) r with
          | some (e2, r') => loopE n lvl (.binop b e e2) r'
          | none => none
        else some (e, ts)
      | none => some (e, ts)
    | _ => some (e, ts)
end

/-! ## Statements -/

/-- Arguments behind the opening parenthesis, at least one. -/
def parseArgs1 : Nat → List Tok → Option (List CE × List Tok)
  | 0, _ => none
  | n + 1, ts => match parseE n 6 ts with
    | some (e, .p .rpar :: r) => some ([e], r)
    | some (e, .p .comma :: r) => match parseArgs1 n r with
      | some (es, r') => some (e :: es, r')
      | none => none
    | _ => none

/-- Arguments behind the opening parenthesis. -/
def parseArgs (n : Nat) : List Tok → Option (List CE × List Tok)
  | .p .rpar :: r => some ([], r)
  | ts => parseArgs1 n ts

/-- An assignment: a temporary is set. -/
def mkAssign : CE → CE → CS
  | .temp x, e => .set x e
  | a, e => .assign a e

/-- An assignment or a call, with the semicolon.  A call is a postfix expression followed by arguments (6.5.2); it is a Clight
statement alone or as the right side of an assignment to a temporary. -/
def parseSimple (n : Nat) (ts : List Tok) : Option (CS × List Tok) :=
  match parseE n 16 ts with
  | some (f, .p .lpar :: r) => match parseArgs n r with
    | some (es, .p .semi :: r') => some (.call none f es, r')
    | _ => none
  | _ => match parseE n 15 ts with
    | some (a, .p .assign :: r) => match parseE n 16 r with
      | some (f, .p .lpar :: r1) => match a, parseArgs n r1 with
        | .temp x, some (es, .p .semi :: r2) => some (.call (some x) f es, r2)
        | _, _ => none
      | _ => match parseE n 6 r with
        | some (e, .p .semi :: r1) => some (mkAssign a e, r1)
        | _ => none
    | _ => none

/-- A label with its colon. -/
def parseLabel : List Tok → Option (Option Int × List Tok)
  | .kw .default :: .p .colon :: r => some (none, r)
  | .kw .case :: .num k .none :: .p .colon :: r => some (some k, r)
  | .kw .case :: .p .minus :: .num k .none :: .p .colon :: r => some (some (-(k : Int)), r)
  | _ => none

/-- Whether a label begins here. -/
def labelStart : List Tok → Bool
  | .kw .default :: _ => true
  | .kw .case :: _ => true
  | _ => false

mutual
/-- A statement. -/
def parseS : Nat → List Tok → Option (CS × List Tok)
  | 0, _ => none
  | n + 1, ts => match ts with
    | .p .semi :: r => some (.skip, r)
    | .kw .brk :: .p .semi :: r => some (.brk, r)
    | .kw .ret :: .p .semi :: r => some (.ret none, r)
    | .kw .ret :: r => match parseE n 6 r with
      | some (e, .p .semi :: r') => some (.ret (some e), r')
      | _ => none
    | .kw .if_ :: .p .lpar :: r => match parseE n 6 r with
      | some (e, .p .rpar :: .p .lbrace :: r1) => match parseBlock n r1 with
        | some (a, .kw .else_ :: .p .lbrace :: r2) => match parseBlock n r2 with
          | some (b, r3) => some (.ite e a b, r3)
          | none => none
        | some (a, r2) => some (.ite e a .skip, r2)
        | none => none
      | _ => none
    | .kw .switch :: .p .lpar :: r => match parseE n 6 r with
      | some (e, .p .rpar :: .p .lbrace :: r1) => match parseCases n r1 with
        | some (ls, r2) => some (.switch e ls, r2)
        | none => none
      | _ => none
    | _ => parseSimple n ts
/-- Statements and the closing brace. -/
def parseBlock : Nat → List Tok → Option (CS × List Tok)
  | 0, _ => none
  | n + 1, ts => match ts with
    | .p .rbrace :: r => some (.skip, r)
    | _ => match parseS n ts with
      | some (s, r) => match parseBlock n r with
        | some (b, r') => some (.seq s b, r')
        | none => none
      | none => none
/-- The inside of a `switch` and the closing brace.  A label must be followed by a label or a statement (6.8.1). -/
def parseCases : Nat → List Tok → Option (LS × List Tok)
  | 0, _ => none
  | n + 1, ts => match ts with
    | .p .rbrace :: r => some (.nil, r)
    | _ => match parseLabel ts with
      | some (l, r) => if labelStart r then match parseCases n r with
            | some (ls, r') => some (.cons l .skip ls, r')
            | none => none
          else match parseItems n r with
          | some (s, r1) => match parseCases n r1 with
            | some (ls, r2) => some (.cons l s ls, r2)
            | none => none
          | none => none
      | none => none
/-- Statements up to a label or the closing brace, at least one. -/
def parseItems : Nat → List Tok → Option (CS × List Tok)
  | 0, _ => none
  | n + 1, ts => match parseS n ts with
    | some (s, .p .rbrace :: r) => some (s, .p .rbrace :: r)
    | some (s, r) => if labelStart r then some (s, r) else match parseItems n r with
      | some (s', r') => some (.seq s s', r')
      | none => none
    | none => none
end

/-! ## Functions -/

/-- Declarations of variables and temporaries at the beginning of a function. -/
def parseVars : Nat → List Tok → Option (List (Name × CTy) × List (Name × CTy) × List Tok)
  | 0, _ => none
  | n + 1, ts => if tyStart ts then match parseTy n ts with
      | some (some x, t, .p .semi :: r) => match parseVars n r with
        | some (vs, tps, r') => some ((x, t) :: vs, tps, r')
        | none => none
      | _ => none
    else match ts with
    | .kw .register :: r => match parseTy n r with
      | some (some ('$' :: x), t, .p .semi :: r1) => match parseVars n r1 with
        | some (vs, tps, r') => some (vs, (x, t) :: tps, r')
        | none => none
      | _ => none
    | _ => some ([], [], ts)

/-- The names of parameters, which are temporaries. -/
def paramNames : List (Option Name × CTy) → Option (List (Name × CTy))
  | [] => some []
  | (some ('$' :: x), t) :: ps => (paramNames ps).map ((x, t) :: ·)
  | _ => none

/-- A function definition (6.9.1). -/
def parseFn (n : Nat) (ts : List Tok) : Option (CFn × List Tok) :=
  match parseBase ts with
  | some (b, r) => match parseDecl n r with
    | some (some f, .fn ps va :: ds, .p .lbrace :: r1) => match paramNames ps, parseVars n r1 with
      | some ps, some (vs, tps, r2) => match parseBlock n r2 with
        | some (s, r3) => some (⟨f, wrap ds (.base b), ps, va, vs, tps, s⟩, r3)
        | none => none
      | _, _ => none
    | _ => none
  | none => none

/-! ## When two programs are the same -/

/-- Expressions that differ only in how negative constants are written and in that a cast to a function type (not allowed in C,
made for calls of primitives) is one to a pointer. -/
inductive SameE : CE → CE → Prop
  | refl (e) : SameE e e
  | trans {a b c} : SameE a b → SameE b c → SameE a c
  | deref {a b} : SameE a b → SameE (.deref a) (.deref b)
  | field {a b} (f) : SameE a b → SameE (.field a f) (.field b f)
  | unop {a b} (o) : SameE a b → SameE (.unop o a) (.unop o b)
  | addrof {a b} : SameE a b → SameE (.addrof a) (.addrof b)
  | binop {a b c d} (o) : SameE a b → SameE c d → SameE (.binop o a c) (.binop o b d)
  | cast {a b} (t) : SameE a b → SameE (.cast a t) (.cast b t)
  | fnCast (a as va r) : SameE (.cast a (.fn as va r)) (.cast a (.ptr (.fn as va r)))
  | int {n} : 2 ^ 31 < n → n < 2 ^ 32 → SameE (.cint n false) (.unop .neg (.cint (2 ^ 32 - n) false))
  | long {n} : 2 ^ 63 < n → n < 2 ^ 64 → SameE (.clong n false) (.unop .neg (.clong (2 ^ 64 - n) false))

/-- The same arguments. -/
inductive SameEs : List CE → List CE → Prop
  | nil : SameEs [] []
  | cons {a b as bs} : SameE a b → SameEs as bs → SameEs (a :: as) (b :: bs)

mutual
/-- Statements that differ only in how sequences are nested, in empty statements within sequences, in the way of writing a
conditional without a first branch, and in how an assignment to a temporary is represented. -/
inductive Same : CS → CS → Prop
  | refl (s) : Same s s
  | symm {a b} : Same a b → Same b a
  | trans {a b c} : Same a b → Same b c → Same a c
  | assign {a b c d} : SameE a b → SameE c d → Same (.assign a c) (.assign b d)
  | set (x) {c d} : SameE c d → Same (.set x c) (.set x d)
  | temp (x e) : Same (.assign (.temp x) e) (.set x e)
  | call (r) {f g as bs} : SameE f g → SameEs as bs → Same (.call r f as) (.call r g bs)
  | ret {a b} : SameE a b → Same (.ret (some a)) (.ret (some b))
  | seq {a b c d} : Same a b → Same c d → Same (.seq a c) (.seq b d)
  | assoc (a b c) : Same (.seq (.seq a b) c) (.seq a (.seq b c))
  | skipL (a) : Same (.seq .skip a) a
  | skipR (a) : Same (.seq a .skip) a
  | ite {e f a b c d} : SameE e f → Same a b → Same c d → Same (.ite e a c) (.ite f b d)
  | not (e a) : Same (.ite e .skip a) (.ite (.unop .notbool e) a .skip)
  | switch {e f ls ms} : SameE e f → SameL ls ms → Same (.switch e ls) (.switch f ms)
/-- The same labelled statements. -/
inductive SameL : LS → LS → Prop
  | nil : SameL .nil .nil
  | cons (l) {s t ls ms} : Same s t → SameL ls ms → SameL (.cons l s ls) (.cons l t ms)
end

/-! ## Which programs are covered -/

/-- A name: an identifier that is not reserved. -/
def nameOk (x : Name) : Bool :=
  match x with
  | [] => false
  | c :: s => identStart c && s.all identChar && (kwTable.lookup (c :: s)).isNone

/-- The name of a variable: temporaries begin with `$`. -/
def varOk (x : Name) : Bool := nameOk x && x.head? != some '$'

/-- Names of structures. -/
def Base.ok : Base → Bool
  | .struct s => nameOk s
  | .union s => nameOk s
  | _ => true

mutual
/-- Types that can be declared: arguments are not functions, arrays or `void`, and `...` is behind an argument. -/
def CTy.ok : CTy → Bool
  | .base b => b.ok
  | .ptr t => t.ok
  | .arr t _ => t.ok
  | .fn args va res => args.ok && (!va || args.nonempty) && res.ok
/-- Types of arguments. -/
def CTys.ok : CTys → Bool
  | .nil => true
  | .cons t ts => t.argOk && t.ok && ts.ok
/-- Neither a function nor an array nor `void`. -/
def CTy.argOk : CTy → Bool
  | .base .void => false
  | .base _ => true
  | .ptr _ => true
  | _ => false
/-- Some argument. -/
def CTys.nonempty : CTys → Bool
  | .nil => false
  | .cons _ _ => true
end

/-- Types that can be written without a name: not functions, which would be printed as pointers to functions, and not
arrays. -/
def CTy.absOk : CTy → Bool
  | .fn _ _ _ => false
  | .arr _ _ => false
  | t => t.ok

/-- The type a cast is printed with: a function becomes a pointer to it. -/
def CTy.decay : CTy → CTy
  | .fn as va r => .ptr (.fn as va r)
  | t => t

/-- Constants. -/
def CE.isConst : CE → Bool
  | .cint _ _ => true
  | .clong _ _ => true
  | _ => false

/-- Whether the text begins with `-`. -/
def CE.minus : CE → Bool
  | .unop .neg _ => true
  | .cint n false => decide (2 ^ 31 ≤ n)
  | .clong n false => decide (2 ^ 63 ≤ n)
  | _ => false

/-- Whether the text begins with `&`. -/
def CE.amp : CE → Bool
  | .addrof _ => true
  | _ => false

/-- Expressions covered: constants are words other than the least integer, no constant has fields, no `-` before an
expression that begins with `-`, no `&` before `&`. -/
def CE.ok : CE → Bool
  | .var x => varOk x
  | .temp x => nameOk (tempName x)
  | .deref e => e.ok
  | .field e f => e.ok && !e.isConst && nameOk f
  | .cint n uns => decide (n < 2 ^ 32) && (uns || n != 2 ^ 31)
  | .clong n uns => decide (n < 2 ^ 64) && (uns || n != 2 ^ 63)
  | .unop o e => e.ok && !(decide (o = .neg) && e.minus)
  | .addrof e => e.ok && !e.amp
  | .binop _ a b => a.ok && b.ok
  | .cast e t => e.ok && t.decay.absOk
  | .sizeof t => t.absOk
  | .alignof t => t.absOk

/-- What is called: not a unary expression (which would be printed without parentheses) and not a constant. -/
def CE.calleeOk : CE → Bool
  | .deref _ => false
  | .unop _ _ => false
  | .addrof _ => false
  | .sizeof _ => false
  | .alignof _ => false
  | .cint _ _ => false
  | .clong _ _ => false
  | _ => true

/-- What can be assigned to. -/
def CE.lval : CE → Bool
  | .var _ => true
  | .temp _ => true
  | .deref _ => true
  | .field _ _ => true
  | _ => false

mutual
/-- Statements covered. -/
def CS.ok : CS → Bool
  | .skip => true
  | .assign a b => a.ok && a.lval && b.ok
  | .set x e => nameOk (tempName x) && e.ok
  | .call none f args => f.ok && f.calleeOk && args.all CE.ok
  | .call (some x) f args => nameOk (tempName x) && f.ok && f.calleeOk && args.all CE.ok
  | .seq a b => a.ok && b.ok
  | .ite e a b => e.ok && a.ok && b.ok
  | .switch e ls => e.ok && ls.ok
  | .brk => true
  | .ret none => true
  | .ret (some e) => e.ok
/-- Cases: the last one is not empty (its label would be before the closing brace). -/
def LS.ok : LS → Bool
  | .nil => true
  | .cons _ s .nil => s.ok && !s.isSkip
  | .cons _ s ls => s.ok && ls.ok
end

/-- Functions covered. -/
def CFn.ok (f : CFn) : Bool :=
  nameOk f.name && f.ret.ok && f.params.all (fun p => nameOk (tempName p.1) && p.2.ok) && (!f.va || !f.params.isEmpty) &&
    f.vars.all (fun p => nameOk p.1 && p.2.ok) && f.temps.all (fun p => nameOk (tempName p.1) && p.2.ok) && f.body.ok

/-! ## Reading text -/

/-- The text is read as this expression: with every large enough bound on the recursion. -/
def ReadsE (s : List Char) (e : CE) : Prop :=
  ∃ ts, lex s.length s = some ts ∧ ∃ N, ∀ n, N ≤ n → parseE n 6 ts = some (e, [])

/-- The text is read as this type. -/
def ReadsTy (s : List Char) (x : Option Name) (t : CTy) : Prop :=
  ∃ ts, lex s.length s = some ts ∧ ∃ N, ∀ n, N ≤ n → parseTy n ts = some (x, t, [])

/-- The text (the inside of a block and its closing brace) is read as this statement. -/
def ReadsS (s : List Char) (c : CS) : Prop :=
  ∃ ts, lex s.length s = some ts ∧ ∃ N, ∀ n, N ≤ n → parseBlock n ts = some (c, [])

/-- The text is read as this function definition. -/
def ReadsFn (s : List Char) (f : CFn) : Prop :=
  ∃ ts, lex s.length s = some ts ∧ ∃ N, ∀ n, N ≤ n → parseFn n ts = some (f, [])

/-! ## What statements mean

A meaning is given by what expressions stand for and by what assignments and calls do to a state of some kind; anything that
satisfies the four laws is allowed. -/

/-- How a statement ends. -/
inductive Out (D : Type)
  | normal
  | brk
  | ret (d : Option D)

/-- Meanings of expressions and simple statements, with four laws: `-` before a constant, `!` before a condition,
assignment to a temporary, and casts to function types. -/
structure Meaning where
  D : Type
  St : Type
  var : Name → D
  temp : Name → D
  deref : D → D
  field : D → Name → D
  cint : Nat → Bool → D
  clong : Nat → Bool → D
  unop : UnOp → D → D
  addrof : D → D
  binop : BinOp → D → D → D
  cast : D → CTy → D
  sizeof : CTy → D
  alignof : CTy → D
  truth : D → St → Option Bool
  index : D → St → Option Int
  assign : D → D → St → Option St
  set : Name → D → St → Option St
  call : Option Name → D → List D → St → Option St
  negInt : ∀ n, 2 ^ 31 < n → n < 2 ^ 32 → unop .neg (cint (2 ^ 32 - n) false) = cint n false
  negLong : ∀ n, 2 ^ 63 < n → n < 2 ^ 64 → unop .neg (clong (2 ^ 64 - n) false) = clong n false
  not : ∀ d σ, truth (unop .notbool d) σ = (truth d σ).map Bool.not
  fnCast : ∀ d as va r, cast d (.fn as va r) = cast d (.ptr (.fn as va r))
  assignTemp : ∀ x d σ, assign (temp x) d σ = set x d σ

variable (M : Meaning)

/-- What an expression stands for. -/
def CE.den : CE → M.D
  | .var x => M.var x
  | .temp x => M.temp x
  | .deref e => M.deref e.den
  | .field e f => M.field e.den f
  | .cint n u => M.cint n u
  | .clong n u => M.clong n u
  | .unop o e => M.unop o e.den
  | .addrof e => M.addrof e.den
  | .binop o a b => M.binop o a.den b.den
  | .cast e t => M.cast e.den t
  | .sizeof t => M.sizeof t
  | .alignof t => M.alignof t

mutual
/-- What a statement does; `none`: undefined. -/
def CS.exec : CS → M.St → Option (Out M.D × M.St)
  | .skip, σ => some (.normal, σ)
  | .assign a b, σ => (M.assign (a.den M) (b.den M) σ).map (.normal, ·)
  | .set x e, σ => (M.set x (e.den M) σ).map (.normal, ·)
  | .call r f args, σ => (M.call r (f.den M) (args.map (CE.den M)) σ).map (.normal, ·)
  | .seq a b, σ => match a.exec σ with
    | some (.normal, σ') => b.exec σ'
    | o => o
  | .ite e a b, σ => match M.truth (e.den M) σ with
    | some true => a.exec σ
    | some false => b.exec σ
    | none => none
  | .switch e ls, σ => match M.index (e.den M) σ with
    | some z =>
      let r := match ls.from (some z) σ with
        | some r => r
        | none => match ls.from none σ with
          | some r => r
          | none => some (.normal, σ)
      match r with
      | some (.brk, σ') => some (.normal, σ')
      | o => o
    | none => none
  | .brk, σ => some (.brk, σ)
  | .ret e, σ => some (.ret (e.map (CE.den M)), σ)
/-- The cases from this label on; `none`: there is no such label. -/
def LS.from : LS → Option Int → M.St → Option (Option (Out M.D × M.St))
  | .nil, _, _ => none
  | .cons l s ls, z, σ => if l = z then
      some (match s.exec σ with
        | some (.normal, σ') => ls.all σ'
        | o => o)
    else ls.from z σ
/-- All cases one after the other. -/
def LS.all : LS → M.St → Option (Out M.D × M.St)
  | .nil, σ => some (.normal, σ)
  | .cons _ s ls, σ => match s.exec σ with
    | some (.normal, σ') => ls.all σ'
    | o => o
end

end CPrint
