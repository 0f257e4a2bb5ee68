import Verif.ANF.Syntax

/-!
# The text of `CertiRocq Show IR` (`theories/LambdaANF/cps_show.v`)

Simplifications: the tree of strings that is flattened at the end (cps_show.v:40-60, 95-98) is the list of characters; function tags are not
shown (`ftag_flag` is `false` in both uses, Compiler/pipeline.v:164 and LambdaANF/toplevel.v:121). The text of strings comes from a function of
MetaRocq and is a parameter; that of floats is `string_of_float` (common/AstCommon.v:579-589).
-/

namespace IR
open ANF

abbrev Str := List Char

/-- The names of variables and constructors (`nenv` and `cenv`, cps_show.v:25-26; only `nNamed` counts), and the text of strings. -/
structure Tables where
  names : Var → Option Str
  ctors : Tag → Option Str
  str : List Nat → Str

/-- `show_pos`, `show_binnat` (cps_show.v:30-32). -/
def showNat (n : Nat) : Str := Nat.toDigits 10 n

/-- `sep` (cps_show.v:35-40). -/
def sep {α : Type} (s : α) : List α → List α
  | [] => []
  | [h] => [h]
  | h :: t => h :: s :: sep s t

/-- `show_var` (cps_show.v:63-67). -/
def showVar (T : Tables) (x : Var) : Str := match T.names x with
  | some s => s ++ '_' :: showNat x
  | none => 'x' :: showNat x

/-- `show_con` (cps_show.v:75-79). -/
def showCon (T : Tables) (t : Tag) : Str := match T.ctors t with
  | some s => s
  | none => ['c', 'o', 'n', '_'] ++ showNat t

/-- `show_vars` (cps_show.v:85-87). -/
def showVars (T : Tables) (xs : List Var) : Str :=
  '(' :: ((sep [','] (xs.map (showVar T))).foldr (fun x y => x ++ y) [] ++ [')'])

/-- `tab` (cps_show.v:99-103). -/
def tab : Nat → Str
  | 0 => []
  | n + 1 => ' ' :: tab n

/-- The parts of a double given by its bits. -/
def fneg (b : Nat) : Bool := b / 2^63 == 1
def fexpo (b : Nat) : Nat := b / 2^52 % 2^11
def fmant (b : Nat) : Nat := b % 2^52

/-- MetaRocq's `string_of_Z`. -/
def showInt : Int → Str
  | .ofNat n => showNat n
  | .negSucc n => '-' :: showNat (n + 1)

/-- `string_of_specfloat` (common/AstCommon.v:579-587) of `FloatOps.Prim2SF`, which gives mantissa and exponent in canonical form. -/
def showFloat (b : Nat) : Str :=
  let num := if fexpo b = 0 then
      if fmant b = 0 then ['0'] else showNat (fmant b) ++ 'p' :: showInt (-1074)
    else if fexpo b = 2047 then ['I', 'N', 'F', 'I', 'N', 'I', 'T', 'Y']
    else showNat (fmant b + 2^52) ++ 'p' :: showInt (fexpo b - 1075)
  if fexpo b = 2047 ∧ fmant b ≠ 0 then ['N', 'A', 'N'] else if fneg b then '-' :: num else num

/-- `emit_prim` (cps_show.v:110-115). -/
def showPrim (T : Tables) : PVal → Str
  | .int n => ['(', 'i', 'n', 't', ':', ' '] ++ showNat n ++ [')']
  | .float b => ['(', 'f', 'l', 'o', 'a', 't', ':', ' '] ++ showFloat b ++ [')']
  | .str s => ['(', 's', 't', 'r', 'i', 'n', 'g', ':', ' '] ++ T.str s ++ [')']

/-- The beginning and the end of the lines of bindings (cps_show.v:122-149). -/
def lets (T : Tables) (x : Var) (s : Str) : Str :=
  ['l', 'e', 't', ' '] ++ showVar T x ++ [' ', ':', '=', ' '] ++ s ++ [' ', 'i', 'n', ' ', '\n']

mutual
/-- `emit_exp` (cps_show.v:119-180). -/
def showE (T : Tables) (i : Nat) : Exp → Str
  | .constr x t ys e => tab i ++ lets T x (showCon T t ++ showVars T ys) ++ showE T i e
  | .proj x t n y e =>
    tab i ++ lets T x (['p', 'r', 'o', 'j', '_'] ++ showNat n ++ [' '] ++ showNat t ++ [' '] ++ showVar T y) ++ showE T i e
  | .primVal x p e => tab i ++ lets T x (['p', 'r', 'i', 'm', ':', ' '] ++ showPrim T p) ++ showE T i e
  | .prim x p ys e => tab i ++ lets T x (['p', 'r', 'i', 'm', '_'] ++ showNat p ++ showVars T ys) ++ showE T i e
  | .letapp x f _ ys e => tab i ++ lets T x (['a', 'p', 'p', ' '] ++ showVar T f ++ showVars T ys) ++ showE T i e
  | .case x bs => tab i ++ ['c', 'a', 's', 'e', ' '] ++ showVar T x ++ [' ', 'o', 'f', ' ', '{', '\n'] ++ showB T i bs ++ tab i ++ ['}', '\n']
  | .fn B e => tab i ++ ['l', 'e', 't', 'r', 'e', 'c', ' ', '[', '\n'] ++ showD T i B ++ tab i ++ [']', ' ', 'i', 'n', '\n'] ++ showE T i e
  | .app f _ ys => tab i ++ showVar T f ++ showVars T ys ++ ['\n']
  | .halt x => tab i ++ ['h', 'a', 'l', 't', ' '] ++ showVar T x ++ ['\n']
/-- The loop over branches (cps_show.v:152-161). -/
def showB (T : Tables) (i : Nat) : Brs → Str
  | .nil => []
  | .cons t e bs => tab i ++ ['|', ' '] ++ showCon T t ++ [' ', '=', '>', ' ', '\n'] ++ showE T (2 + i) e ++ showB T i bs
/-- The loop over functions (cps_show.v:165-176). -/
def showD (T : Tables) (i : Nat) : Defs → Str
  | .nil => []
  | .cons f _ xs e B =>
    tab (2 + i) ++ ['f', 'u', 'n', ' '] ++ showVar T f ++ showVars T xs ++ [' ', ':', '=', ' ', '\n'] ++ showE T (4 + i) e ++ showD T i B
end

/-- `show_exp` (cps_show.v:243-245). -/
def showExp (T : Tables) (e : Exp) : Str := '\n' :: showE T 0 e

/-! ## Specification -/

/-- Names contain no blanks, parentheses, commas, colons and newlines. Identifiers of Rocq do not. -/
def wordChar (c : Char) : Bool := c != ' ' && c != '(' && c != ')' && c != ',' && c != ':' && c != '\n'
def Word (s : Str) : Prop := ∀ c ∈ s, wordChar c = true

/-- What is asked of the tables: names are words; constructors with names have different ones, none of which is a name that the printer
makes itself; the texts of strings have no newlines and tell them apart. -/
structure Ok (T : Tables) : Prop where
  names : ∀ x s, T.names x = some s → Word s
  ctors : ∀ t s, T.ctors t = some s → Word s
  apart : ∀ t t' s, T.ctors t = some s → T.ctors t' = some s → t = t'
  notCon : ∀ t k, T.ctors t ≠ some ("con_".toList ++ Nat.toDigits 10 k)
  notPrim : ∀ t k, T.ctors t ≠ some ("prim_".toList ++ Nat.toDigits 10 k)
  strs : ∀ s, '\n' ∉ T.str s
  strInj : ∀ a b, (∀ c ∈ a, c < 256) → (∀ c ∈ b, c < 256) → T.str a = T.str b → a = b

/-- The literals there are: floats are doubles with one value that is not a number (Rocq has one only), strings consist of bytes. -/
def LitOk : PVal → Prop
  | .int _ => True
  | .float b => b < 2^64 ∧ (fexpo b = 2047 → fmant b ≠ 0 → b = 0x7FF8000000000000)
  | .str s => ∀ c ∈ s, c < 256

mutual
/-- All literals of a program are such. -/
def Lits : Exp → Prop
  | .constr _ _ _ e | .proj _ _ _ _ e | .letapp _ _ _ _ e | .prim _ _ _ e => Lits e
  | .primVal _ p e => LitOk p ∧ Lits e
  | .case _ bs => LitsB bs
  | .fn B e => LitsD B ∧ Lits e
  | .app _ _ _ | .halt _ => True
def LitsB : Brs → Prop
  | .nil => True
  | .cons _ e bs => Lits e ∧ LitsB bs
def LitsD : Defs → Prop
  | .nil => True
  | .cons _ _ _ e B => Lits e ∧ LitsD B
end

mutual
/-- The program but for function tags. -/
def untag : Exp → Exp
  | .constr x t ys e => .constr x t ys (untag e)
  | .case x bs => .case x (untagB bs)
  | .proj x t n y e => .proj x t n y (untag e)
  | .letapp x f _ ys e => .letapp x f 0 ys (untag e)
  | .fn B e => .fn (untagD B) (untag e)
  | .app f _ ys => .app f 0 ys
  | .primVal x p e => .primVal x p (untag e)
  | .prim x p ys e => .prim x p ys (untag e)
  | .halt x => .halt x
def untagB : Brs → Brs
  | .nil => .nil
  | .cons t e bs => .cons t (untag e) (untagB bs)
def untagD : Defs → Defs
  | .nil => .nil
  | .cons f _ xs e B => .cons f 0 xs (untag e) (untagD B)
end

end IR
