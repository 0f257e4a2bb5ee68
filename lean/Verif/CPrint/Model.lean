/-!
# The printer of C files: plugin/static/printClight.ml and the parts of plugin/static/printCsyntax.ml it uses

The compiler writes a Clight program as C text.  The printer is modelled as a function from Clight syntax to characters, in
two steps: tokens and white space, then their characters.

Simplifications.  A break of OCaml's `Format` is one space (it may also be a line end, which is white space as well).  Types
carry no attributes but the one that makes a pointer to `void` the type `value`; functions are never declared without a
prototype.  Expressions do not carry the types that are not printed.  Names are those the tables of atoms give
(`extern_atom`); a temporary `x` is printed `$x`.  Floating-point literals are treated apart.  Statements that the compiler
never generates (loops, labels, `goto`, `continue`, built-ins) are left out.
-/

namespace CPrint

/-- A name. -/
abbrev Name := List Char

/-- The types printed as a sequence of words (`name_inttype`, `name_floattype`, `name_longtype`, the first, third, eleventh
and twelfth case of `name_cdecl`; printCsyntax.ml:51-69, 94-143). -/
inductive Base
  | void | value | schar | uchar | short | ushort | int | uint | bool | float | double | llong | ullong
  | struct (s : Name)
  | union (s : Name)
  deriving DecidableEq

mutual
/-- The types of CompCert's `Ctypes`. -/
inductive CTy
  | base (b : Base)
  | ptr (t : CTy)
  | arr (t : CTy) (n : Nat)
  | fn (args : CTys) (va : Bool) (res : CTy)
inductive CTys
  | nil
  | cons (t : CTy) (ts : CTys)
end

/-- `Cop.binary_operation`. -/
inductive BinOp
  | mul | div | mod | add | sub | shl | shr | lt | gt | le | ge | eq | ne | and | xor | or
  deriving DecidableEq

/-- `Cop.unary_operation` but for `Oabsfloat`. -/
inductive UnOp
  | notbool | notint | neg
  deriving DecidableEq

/-- Clight expressions.  A constant is a machine word and whether its type is the unsigned one. -/
inductive CE
  | var (x : Name)
  | temp (x : Name)
  | deref (e : CE)
  | field (e : CE) (f : Name)
  | cint (n : Nat) (uns : Bool)
  | clong (n : Nat) (uns : Bool)
  | unop (o : UnOp) (e : CE)
  | addrof (e : CE)
  | binop (o : BinOp) (a b : CE)
  | cast (e : CE) (t : CTy)
  | sizeof (t : CTy)
  | alignof (t : CTy)

mutual
/-- Clight statements. -/
inductive CS
  | skip
  | assign (a b : CE)
  | set (x : Name) (e : CE)
  | call (r : Option Name) (f : CE) (args : List CE)
  | seq (a b : CS)
  | ite (e : CE) (a b : CS)
  | switch (e : CE) (ls : LS)
  | brk
  | ret (e : Option CE)
/-- Labelled statements. -/
inductive LS
  | nil
  | cons (l : Option Int) (s : CS) (ls : LS)
end

/-- Reserved words. -/
inductive Kw
  | void | value | signed | unsigned | char | short | int | bool | float | double | long | struct | union
  | sizeof | alignof | if_ | else_ | switch | case | default | brk | ret | register
  deriving DecidableEq

/-- Punctuators used. -/
inductive Pn
  | lpar | rpar | lbrk | rbrk | lbrace | rbrace | semi | comma | colon | dot | dots | assign
  | star | slash | percent | plus | minus | shl | shr | lt | gt | le | ge | eqeq | ne | amp | caret | bar | bang | tilde
  deriving DecidableEq

/-- Suffix of a number. -/
inductive Suf
  | none | u | ll | llu
  deriving DecidableEq

/-- A token. -/
inductive Tok
  | id (s : Name)
  | kw (k : Kw)
  | num (n : Nat) (s : Suf)
  | p (p : Pn)
  deriving DecidableEq

/-- What is printed: tokens, spaces, the comment of an empty statement. -/
inductive Piece
  | t (t : Tok)
  | sp
  | cmt
  deriving DecidableEq

/-- The characters of a reserved word. -/
def Kw.chars : Kw → List Char
  | .void => "void".toList | .value => "value".toList | .signed => "signed".toList | .unsigned => "unsigned".toList
  | .char => "char".toList | .short => "short".toList | .int => "int".toList | .bool => "_Bool".toList
  | .float => "float".toList | .double => "double".toList | .long => "long".toList | .struct => "struct".toList
  | .union => "union".toList | .sizeof => "sizeof".toList | .alignof => "__alignof__".toList | .if_ => "if".toList
  | .else_ => "else".toList | .switch => "switch".toList | .case => "case".toList | .default => "default".toList
  | .brk => "break".toList | .ret => "return".toList | .register => "register".toList

/-- The characters of a punctuator. -/
def Pn.chars : Pn → List Char
  | .lpar => ['('] | .rpar => [')'] | .lbrk => ['['] | .rbrk => [']'] | .lbrace => ['{'] | .rbrace => ['}'] | .semi => [';']
  | .comma => [','] | .colon => [':'] | .dot => ['.'] | .dots => ['.', '.', '.'] | .assign => ['='] | .star => ['*']
  | .slash => ['/'] | .percent => ['%'] | .plus => ['+'] | .minus => ['-'] | .shl => ['<', '<'] | .shr => ['>', '>']
  | .lt => ['<'] | .gt => ['>'] | .le => ['<', '='] | .ge => ['>', '='] | .eqeq => ['=', '='] | .ne => ['!', '=']
  | .amp => ['&'] | .caret => ['^'] | .bar => ['|'] | .bang => ['!'] | .tilde => ['~']

/-- The characters of a suffix. -/
def Suf.chars : Suf → List Char
  | .none => []
  | .u => ['U']
  | .ll => ['L', 'L']
  | .llu => ['L', 'L', 'U']

/-- The characters of a token (numbers: `%lu`, `%ld`, `%Lu`, `%Ld` of OCaml's `Printf`). -/
def Tok.chars : Tok → List Char
  | .id s => s
  | .kw k => k.chars
  | .num n s => Nat.toDigits 10 n ++ s.chars
  | .p q => q.chars

/-- The characters printed. -/
def Piece.chars : Piece → List Char
  | .t x => x.chars
  | .sp => [' ']
  | .cmt => "/*skip*/".toList

/-- A punctuator. -/
abbrev pn (p : Pn) : Piece := .t (.p p)
/-- A word. -/
abbrev kw (k : Kw) : Piece := .t (.kw k)
/-- A name. -/
abbrev nm (x : Name) : Piece := .t (.id x)

/-- `name_inttype`, `name_floattype`, `name_longtype`, the hack for `value`, structures (printCsyntax.ml:51-69, 94-143). -/
def Base.pieces : Base → List Piece
  | .void => [kw .void]
  | .value => [kw .value]
  | .schar => [kw .signed, .sp, kw .char]
  | .uchar => [kw .unsigned, .sp, kw .char]
  | .short => [kw .short]
  | .ushort => [kw .unsigned, .sp, kw .short]
  | .int => [kw .int]
  | .uint => [kw .unsigned, .sp, kw .int]
  | .bool => [kw .bool]
  | .float => [kw .float]
  | .double => [kw .double]
  | .llong => [kw .long, .sp, kw .long]
  | .ullong => [kw .unsigned, .sp, kw .long, .sp, kw .long]
  | .struct s => [kw .struct, .sp, nm s]
  | .union s => [kw .union, .sp, nm s]

/-- A function or an array. -/
def CTy.isFnArr : CTy → Bool
  | .fn _ _ _ => true
  | .arr _ _ => true
  | _ => false

mutual
/-- `name_cdecl` (printCsyntax.ml:94-143). -/
def cdecl : CTy → List Piece → List Piece
  | .base b, id => b.pieces ++ (if id = [] then [] else .sp :: id)
  | .ptr t, id => cdecl t (if t.isFnArr then [pn .lpar, pn .star] ++ id ++ [pn .rpar] else pn .star :: id)
  | .arr t n, id => cdecl t (id ++ [pn .lbrk, .t (.num n .none), pn .rbrk])
  | .fn args va res, id => cdecl res ((if id = [] then [pn .lpar, pn .star, pn .rpar] else id) ++
      [pn .lpar] ++ cdeclArgs args va true ++ [pn .rpar])
/-- `add_args` in `name_cdecl` (printCsyntax.ml:124-137). -/
def cdeclArgs : CTys → Bool → Bool → List Piece
  | .nil, va, first => if first then (if va then [pn .dots] else [kw .void])
      else if va then [pn .comma, .sp, pn .dots] else []
  | .cons t ts, va, first => (if first then [] else [pn .comma, .sp]) ++ cdecl t [] ++ cdeclArgs ts va false
end

/-- `name_type` (printCsyntax.ml:147). -/
def nameType (t : CTy) : List Piece := cdecl t []

/-- `name_unop` (printCsyntax.ml:27-31). -/
def UnOp.pn : UnOp → Pn
  | .notbool => .bang
  | .notint => .tilde
  | .neg => .minus

/-- `name_binop` (printCsyntax.ml:33-49). -/
def BinOp.pn : BinOp → Pn
  | .add => .plus | .sub => .minus | .mul => .star | .div => .slash | .mod => .percent | .and => .amp | .or => .bar
  | .xor => .caret | .shl => .shl | .shr => .shr | .eq => .eqeq | .ne => .ne | .lt => .lt | .gt => .gt | .le => .le
  | .ge => .ge

/-- `precedence` of a binary operation (printClight.ml:58-65). -/
def BinOp.prec : BinOp → Nat
  | .mul => 13 | .div => 13 | .mod => 13
  | .add => 12 | .sub => 12
  | .shl => 11 | .shr => 11
  | .lt => 10 | .gt => 10 | .le => 10 | .ge => 10
  | .eq => 9 | .ne => 9
  | .and => 8
  | .xor => 7
  | .or => 6

/-- `precedence` (printClight.ml:44-65), without the associativity. -/
def CE.prec : CE → Nat
  | .var _ => 16
  | .temp _ => 16
  | .deref _ => 15
  | .field _ _ => 16
  | .cint _ _ => 16
  | .clong _ _ => 16
  | .sizeof _ => 15
  | .alignof _ => 15
  | .unop _ _ => 15
  | .addrof _ => 15
  | .cast _ _ => 14
  | .binop o _ _ => o.prec

/-- `temp_name` (printClight.ml:34-38). -/
def tempName (x : Name) : Name := '$' :: x

/-- A word printed as a signed number of `w` bits (`%ld`, `%Ld`). -/
def signedNum (w n : Nat) (s : Suf) : List Piece :=
  if n < 2 ^ (w - 1) then [.t (.num n s)] else [pn .minus, .t (.num (2 ^ w - n) s)]

/-- `expr` (printClight.ml:69-115): parentheses when the precedence is too low. -/
def paren (b : Bool) (l : List Piece) : List Piece := if b then [pn .lpar] ++ l ++ [pn .rpar] else l

/-- `expr` (printClight.ml:69-115). -/
def expr : Nat → CE → List Piece
  | p, .var x => paren (decide (16 < p)) [nm x]
  | p, .temp x => paren (decide (16 < p)) [nm (tempName x)]
  | p, .deref e => paren (decide (15 < p)) (pn .star :: expr 15 e)
  | p, .field e f => paren (decide (16 < p)) (expr 16 e ++ [pn .dot, nm f])
  | p, .cint n uns => paren (decide (16 < p)) (if uns then [.t (.num n .u)] else signedNum 32 n .none)
  | p, .clong n uns => paren (decide (16 < p)) (if uns then [.t (.num n .llu)] else signedNum 64 n .ll)
  | p, .unop o e => paren (decide (15 < p)) (pn o.pn :: expr 15 e)
  | p, .addrof e => paren (decide (15 < p)) (pn .amp :: expr 15 e)
  | p, .binop o a b => paren (decide (o.prec < p)) (expr o.prec a ++ [.sp, pn o.pn, .sp] ++ expr (o.prec + 1) b)
  | p, .cast e t => paren (decide (14 < p)) ([pn .lpar] ++ nameType t ++ [pn .rpar, .sp] ++ expr 14 e)
  | p, .sizeof t => paren (decide (15 < p)) ([kw .sizeof, pn .lpar] ++ nameType t ++ [pn .rpar])
  | p, .alignof t => paren (decide (15 < p)) ([kw .alignof, pn .lpar] ++ nameType t ++ [pn .rpar])

/-- `print_expr_list` (printClight.ml:119-125). -/
def exprList : Bool → List CE → List Piece
  | _, [] => []
  | first, e :: es => (if first then [] else [pn .comma, .sp]) ++ expr 2 e ++ exprList false es

/-- A call (printClight.ml:137-145). -/
def callPieces (f : CE) (args : List CE) : List Piece :=
  expr 15 f ++ [pn .lpar] ++ exprList true args ++ [pn .rpar, pn .semi]

/-- `print_case_label` (printClight.ml:212-214). -/
def labelPieces : Option Int → List Piece
  | none => [kw .default]
  | some z => [kw .case, .sp] ++ (if 0 ≤ z then [.t (.num z.toNat .none)] else [pn .minus, .t (.num (-z).toNat .none)])

/-- Whether a statement is `Sskip`. -/
def CS.isSkip : CS → Bool
  | .skip => true
  | _ => false

mutual
/-- `print_stmt` (printClight.ml:129-196). -/
def stmt : CS → List Piece
  | .skip => [.cmt, pn .semi]
  | .assign a b => expr 0 a ++ [.sp, pn .assign, .sp] ++ expr 0 b ++ [pn .semi]
  | .set x e => [nm (tempName x), .sp, pn .assign, .sp] ++ expr 0 e ++ [pn .semi]
  | .call none f args => callPieces f args
  | .call (some x) f args => [nm (tempName x), .sp, pn .assign, .sp] ++ callPieces f args
  | .seq a b => if a.isSkip then stmt b else if b.isSkip then stmt a else stmt a ++ [.sp] ++ stmt b
  | .ite e a b =>
    if b.isSkip then [kw .if_, .sp, pn .lpar] ++ expr 0 e ++ [pn .rpar, .sp, pn .lbrace, .sp] ++ stmt a ++ [pn .rbrace]
    else if a.isSkip then
      [kw .if_, .sp, pn .lpar, pn .bang, .sp] ++ expr 15 e ++ [pn .rpar, .sp, pn .lbrace, .sp] ++ stmt b ++ [pn .rbrace]
    else [kw .if_, .sp, pn .lpar] ++ expr 0 e ++ [pn .rpar, .sp, pn .lbrace, .sp] ++ stmt a ++
      [pn .rbrace, .sp, kw .else_, .sp, pn .lbrace, .sp] ++ stmt b ++ [pn .rbrace]
  | .switch e ls => [kw .switch, .sp, pn .lpar] ++ expr 0 e ++ [pn .rpar, .sp, pn .lbrace, .sp] ++ cases ls ++ [pn .rbrace]
  | .brk => [kw .brk, pn .semi]
  | .ret none => [kw .ret, pn .semi]
  | .ret (some e) => [kw .ret, .sp] ++ expr 0 e ++ [pn .semi]
/-- `print_cases` (printClight.ml:198-210). -/
def cases : LS → List Piece
  | .nil => []
  | .cons l s ls => if s.isSkip then labelPieces l ++ [pn .colon, .sp] ++ cases ls
      else labelPieces l ++ [pn .colon, .sp] ++ stmt s ++ [.sp] ++ cases ls
end

/-- A function definition (`Clight.function`). -/
structure CFn where
  name : Name
  ret : CTy
  params : List (Name × CTy)
  va : Bool
  vars : List (Name × CTy)
  temps : List (Name × CTy)
  body : CS

/-- `add_params` in `name_function_parameters` (printCsyntax.ml:419-426), parameters being temporaries. -/
def paramPieces : Bool → List (Name × CTy) → Bool → List Piece
  | _, [], va => if va then [pn .comma, pn .dots] else []
  | first, (x, t) :: ps, va => (if first then [] else [pn .comma, .sp]) ++ cdecl t [nm (tempName x)] ++ paramPieces false ps va

/-- `name_function_parameters` (printCsyntax.ml:411-429). -/
def fnHead (f : CFn) : List Piece :=
  [nm f.name, pn .lpar] ++ (if f.params = [] then (if f.va then [pn .dots] else [kw .void]) else paramPieces true f.params f.va) ++
    [pn .rpar]

/-- `print_function` (printClight.ml:259-276). -/
def function (f : CFn) : List Piece :=
  cdecl f.ret (fnHead f) ++ [.sp, pn .lbrace, .sp] ++
    (f.vars.map fun v => cdecl v.2 [nm v.1] ++ [pn .semi, .sp]).flatten ++
    (f.temps.map fun v => [kw .register, .sp] ++ cdecl v.2 [nm (tempName v.1)] ++ [pn .semi, .sp]).flatten ++
    stmt f.body ++ [pn .rbrace]

/-- The text. -/
def text (l : List Piece) : List Char := (l.map Piece.chars).flatten

end CPrint
