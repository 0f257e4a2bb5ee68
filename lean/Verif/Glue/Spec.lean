import Verif.Glue.Model
import Verif.Ctor.Spec

/-!
# What print functions print: specification
-/

namespace Glue

open Ctor (W WMem Str Cnstr specOrdinal boxedCount)

/-- Arguments of type constructors: a parameter of the type being declared, or a type without parameters. -/
inductive Sp
  | param (k : Nat)
  | ind (i : Ind)

/-- Types of arguments of constructors: a parameter, an inductive type applied to parameters, a function, a universe, a proposition. -/
inductive ATy
  | param (k : Nat)
  | ind (i : Ind) (sp : List Sp)
  | fn
  | sort
  | prop (i : Ind)

/-- The type a parameter stands for. -/
def Sp.toATy : Sp → ATy
  | .param k => .param k
  | .ind i => .ind i []

/-- Declarations of inductive types. -/
structure Decl where
  ind : Ind
  isProp : Bool
  params : List Str
  ctors : List (Str × List ATy)

/-- Declarations in scope. -/
abbrev Decls := List Decl

/-- A type is declared. -/
def Decls.Has (D : Decls) (i : Ind) (d : Decl) : Prop := d ∈ D ∧ d.ind = i

/-- Values, as far as they are printed: constructors, functions, types, proofs. -/
inductive V
  | con (i : Ind) (c : Nat) (args : List V)
  | fn
  | ty
  | prf

/-- The parameter an `Sp` stands for when the parameters are `ρ`. -/
def Sp.val (ρ : List Ind) : Sp → Option Ind
  | .param k => ρ[k]?
  | .ind i => some i

/-- Values of an inductive type applied to types without parameters (`con`), and of the type of an argument. -/
inductive HasTy (D : Decls) : V → Sum (Ind × List Ind) (ATy × List Ind) → Prop
  | con {i : Ind} {ρ : List Ind} {d : Decl} {c : Nat} {n : Str} {as : List ATy} {vs : List V} : D.Has i d → d.isProp = false → ρ.length = d.params.length →
      d.ctors[c]? = some (n, as) → vs.length = as.length → (∀ (k : Nat) v a, vs[k]? = some v → as[k]? = some a → HasTy D v (.inr (a, ρ))) →
      HasTy D (.con i c vs) (.inl (i, ρ))
  | param {k : Nat} {ρ : List Ind} {v : V} {i : Ind} : ρ[k]? = some i → HasTy D v (.inl (i, [])) → HasTy D v (.inr (.param k, ρ))
  | ind {i : Ind} {sp : List Sp} {ρ ρ' : List Ind} {v : V} : sp.mapM (Sp.val ρ) = some ρ' → HasTy D v (.inl (i, ρ')) → HasTy D v (.inr (.ind i sp, ρ))
  | fn {ρ : List Ind} : HasTy D .fn (.inr (.fn, ρ))
  | ty {ρ : List Ind} : HasTy D .ty (.inr (.sort, ρ))
  | prf {i : Ind} {ρ : List Ind} : HasTy D .prf (.inr (.prop i, ρ))

/-- The name of a constructor. -/
def Decls.name (D : Decls) (i : Ind) (c : Nat) : Str :=
  match D.find? fun d => d.ind = i with
  | some d => match d.ctors[c]? with
    | some (n, _) => n
    | none => []
  | none => []

mutual
/-- The text of a value: constructors applied to arguments are in parentheses. -/
def V.text (D : Decls) : V → Str
  | .con i c [] => D.name i c
  | .con i c (v :: vs) => ['('] ++ D.name i c ++ textArgs D (v :: vs) ++ [')']
  | .fn => "<fun>".toList
  | .ty => "<type>".toList
  | .prf => "<prop>".toList
/-- Arguments, a blank before each. -/
def textArgs (D : Decls) : List V → Str
  | [] => []
  | v :: vs => [' '] ++ v.text D ++ textArgs D vs
end

/-- Constructors of a declaration, with their arities. -/
def Decl.cnstrs (d : Decl) : List Cnstr := d.ctors.map fun c => ⟨c.1, c.2.length⟩

/-- Representation of values in memory: a tagged number, or a block with a header. Nothing is asked of functions, types and proofs. -/
inductive Rep (D : Decls) (m : WMem) : V → W → Prop
  | unboxed {i : Ind} {c : Nat} {d : Decl} : D.Has i d → Rep D m (.con i c []) (BitVec.ofNat 64 (2 * specOrdinal d.cnstrs c + 1))
  | boxed {i : Ind} {c : Nat} {vs : List V} {d : Decl} {w : W} : vs ≠ [] → D.Has i d → w.toNat % 2 = 0 →
      m (w - 8) = BitVec.ofNat 64 (vs.length * 1024 + specOrdinal d.cnstrs c) →
      (∀ (k : Nat) v, vs[k]? = some v → Rep D m v (m (w + 8 * BitVec.ofNat 64 k))) → Rep D m (.con i c vs) w
  | fn {w : W} : Rep D m .fn w
  | ty {w : W} : Rep D m .ty w
  | prf {w : W} : Rep D m .prf w

/-! ## How declarations are given to the generator -/

/-- `t` is the term for parameter `s` in the type of a constructor of the type `self` with `np` parameters, behind `n` arguments: variables count from the inside, over arguments, parameters and the
type itself, which is alone in its block. -/
def Simple (self : Ind) (np n : Nat) (t : Tm) : Sp → Prop
  | .param k => k < np ∧ t = .rel (n + (np - 1 - k))
  | .ind i => t = .ind i ∨ t = .rel (n + np) ∧ i = self

/-- `t` is the term for type `a`, behind arguments `prev` (the last first; `some s` for one whose type is `s`). Behind its parameters a type may have indices, which
are arguments of types without parameters. -/
inductive Denotes (self : Ind) (np : Nat) (prev : List (Option Sp)) : Tm → ATy → Prop
  | simple {t : Tm} {s : Sp} : Simple self np prev.length t s → Denotes self np prev t s.toATy
  | app {h : Tm} {i : Ind} {args : List Tm} {sp ix : List Sp} : Simple self np prev.length h (.ind i) → args.length = sp.length + ix.length →
      (∀ (k : Nat) s t, sp[k]? = some s → args[k]? = some t → Simple self np prev.length t s) →
      (∀ (k : Nat) s t, ix[k]? = some s → args[sp.length + k]? = some t → ∃ n, t = .rel n ∧ prev[n]? = some (some s)) →
      Denotes self np prev (.app h args) (.ind i sp)
  | fn {n : Option Str} {a b : Tm} : Denotes self np prev (.prod n a b) .fn
  | sort : Denotes self np prev .sort .sort
  | prop {i : Ind} : Denotes self np prev (.ind i) (.prop i)
  | propApp {i : Ind} {args : List Tm} : Denotes self np prev (.app (.ind i) args) (.prop i)

/-- The type of a constructor behind its parameters. -/
inductive CtorTy (self : Ind) (np : Nat) : List (Option Sp) → Tm → List ATy → Prop
  | nil {prev : List (Option Sp)} {t : Tm} : (∀ n a b, t ≠ .prod n a b) → CtorTy self np prev t []
  | cons {prev : List (Option Sp)} {n : Option Str} {t u : Tm} {a : ATy} {as : List ATy} {o : Option Sp} : Denotes self np prev t a →
      (∀ s, o = some s → a = s.toATy ∧ Simple self np prev.length t s) → CtorTy self np (o :: prev) u as → CtorTy self np prev (.prod n t u) (a :: as)

/-- The parameters of the type of a constructor. -/
inductive UnderParams : List Str → Tm → Tm → Prop
  | nil {t : Tm} : UnderParams [] t t
  | cons {p : Str} {ps : List Str} {a t u : Tm} : UnderParams ps t u → UnderParams (p :: ps) (.prod (some p) a t) u

/-- What the generator is given is the declaration. -/
structure Same (t : TyInfo) (d : Decl) : Prop where
  ind : t.ind = d.ind
  isProp : t.isProp = d.isProp
  params : t.params = d.params
  length : t.ctors.length = d.ctors.length
  ctor : ∀ (c : Nat) b n as, t.ctors[c]? = some b → d.ctors[c]? = some (n, as) →
    b.name = n ∧ b.arity = as.length ∧ ∃ u, UnderParams d.params b.ty u ∧ CtorTy d.ind d.params.length [] u as

/-- A type that can stand for a parameter. -/
def Sp.Ok (D : Decls) (np : Nat) : Sp → Prop
  | .param k => k < np
  | .ind i => ∃ d, D.Has i d ∧ d.isProp = false ∧ d.params = []

/-- Types of arguments are declared. -/
def ATy.Ok (D : Decls) (np : Nat) : ATy → Prop
  | .param k => k < np
  | .ind i sp => (∃ d, D.Has i d ∧ d.isProp = false ∧ sp.length = d.params.length) ∧ ∀ s ∈ sp, s.Ok D np
  | .prop i => ∃ d, D.Has i d ∧ d.isProp = true
  | _ => True

/-- Declarations: types and parameters have different names, all types of arguments are declared, there are not too many constructors, and
names are printable. -/
structure Decls.Ok (D : Decls) : Prop where
  inds : (D.map Decl.ind).Nodup
  params : ∀ d ∈ D, d.params.Nodup
  args : ∀ d ∈ D, ∀ c ∈ d.ctors, ∀ a ∈ c.2, a.Ok D d.params.length
  names : ∀ d ∈ D, ∀ c ∈ d.ctors, '%' ∉ c.1 ∧ Char.ofNat 0 ∉ c.1
  few : ∀ d ∈ D, d.ctors.length ≤ 2 ^ 30
  boxed : ∀ d ∈ D, boxedCount d.cnstrs ≤ 256

end Glue
