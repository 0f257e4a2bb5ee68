import Verif.Quote.Model

/-!
# C81: quoted programs have the form compiled programs expect
-/

namespace Quote

/-! ## Specification -/

/-- The places that OCaml and compiled programs represent differently: universes, and sets of levels and of constraints. -/
inductive Place
  | sort (u : Srt)
  | set (v : Ob)
  deriving DecidableEq

/-- A record of a value and a proof as compiled programs have it, a block of two fields, the second of which is not looked at. -/
def Record (v w : Ob) : Prop := ∃ proof, w = .pair v proof

/-- A place in OCaml and in the compiled program. A set is a record of a list and a proof that it is sorted; the universe of a type is a record of a set and a proof
that it is not empty. -/
inductive Same : Place → Place → Prop
  | sprop : Same (.sort .sprop) (.sort .sprop)
  | ssprop : Same (.sort .ssprop) (.sort .ssprop)
  | stype {u s w : Ob} : Record u s → Record s w → Same (.sort (.stype u)) (.sort (.stype w))
  | set {u w : Ob} : Record u w → Same (.set u) (.set w)

mutual
/-- The places of a term, in order. -/
def Tm.places : Tm → List Place
  | .atom _ | .int _ | .float _ | .str _ => []
  | .evar _ l => l.places
  | .sort u => [.sort u]
  | .cast t _ t' | .prod _ t t' | .lam _ t t' => t.places ++ t'.places
  | .letin _ t b t' => t.places ++ b.places ++ t'.places
  | .app t l => t.places ++ l.places
  | .case _ _ ps _ r c brs => ps.places ++ r.places ++ c.places ++ brs.places
  | .proj _ t => t.places
  | .fix l _ | .cofix l _ => l.places
  | .array _ v d ty => v.places ++ d.places ++ ty.places
def Tms.places : Tms → List Place
  | .nil => []
  | .cons t l => t.places ++ l.places
def Brs.places : Brs → List Place
  | .nil => []
  | .cons _ t l => t.places ++ l.places
def Dfs.places : Dfs → List Place
  | .nil => []
  | .cons _ ty b _ l => ty.places ++ b.places ++ l.places
end

mutual
/-- The term but for its places. -/
def Tm.blank : Tm → Tm
  | .atom n => .atom n
  | .evar k l => .evar k l.blank
  | .sort _ => .sort .sprop
  | .cast t k t' => .cast t.blank k t'.blank
  | .prod na t t' => .prod na t.blank t'.blank
  | .lam na t t' => .lam na t.blank t'.blank
  | .letin na t b t' => .letin na t.blank b.blank t'.blank
  | .app t l => .app t.blank l.blank
  | .case ci pi ps pc r c brs => .case ci pi ps.blank pc r.blank c.blank brs.blank
  | .proj p t => .proj p t.blank
  | .fix l i => .fix l.blank i
  | .cofix l i => .cofix l.blank i
  | .int i => .int i
  | .float f => .float f
  | .str s => .str s
  | .array u v d ty => .array u v.blank d.blank ty.blank
def Tms.blank : Tms → Tms
  | .nil => .nil
  | .cons t l => .cons t.blank l.blank
def Brs.blank : Brs → Brs
  | .nil => .nil
  | .cons c t l => .cons c t.blank l.blank
def Dfs.blank : Dfs → Dfs
  | .nil => .nil
  | .cons na ty b r l => .cons na ty.blank b.blank r l.blank
end

mutual
/-- There is a literal in the term. -/
def Tm.lit : Tm → Bool
  | .atom _ | .sort _ => false
  | .int _ | .float _ | .str _ => true
  | .evar _ l => l.lit
  | .cast t _ t' | .prod _ t t' | .lam _ t t' => t.lit || t'.lit
  | .letin _ t b t' => t.lit || b.lit || t'.lit
  | .app t l => t.lit || l.lit
  | .case _ _ ps _ r c brs => ps.lit || r.lit || c.lit || brs.lit
  | .proj _ t => t.lit
  | .fix l _ | .cofix l _ => l.lit
  | .array _ v d ty => v.lit || d.lit || ty.lit
def Tms.lit : Tms → Bool
  | .nil => false
  | .cons t l => t.lit || l.lit
def Brs.lit : Brs → Bool
  | .nil => false
  | .cons _ t l => t.lit || l.lit
def Dfs.lit : Dfs → Bool
  | .nil => false
  | .cons _ ty b _ l => ty.lit || b.lit || l.lit
end

/-- The same for the parts of programs. -/
def optPlaces : Option Tm → List Place
  | none => []
  | some t => t.places
def optLit : Option Tm → Bool
  | none => false
  | some t => t.lit
def Decl.places (d : Decl) : List Place := optPlaces d.body ++ d.type.places
def Decl.blank (d : Decl) : Decl := ⟨d.name, d.body.map Tm.blank, d.type.blank⟩
def Decl.lit (d : Decl) : Bool := optLit d.body || d.type.lit
def Ctor.places (c : Ctor) : List Place := c.args.flatMap Decl.places ++ c.indices.flatMap Tm.places ++ c.type.places
def Ctor.blank (c : Ctor) : Ctor := ⟨c.name, c.args.map Decl.blank, c.indices.map Tm.blank, c.type.blank, c.arity⟩
def Ctor.lit (c : Ctor) : Bool := c.args.any Decl.lit || c.indices.any Tm.lit || c.type.lit
def Proj.places (p : Proj) : List Place := p.type.places
def Proj.blank (p : Proj) : Proj := ⟨p.name, p.relevance, p.type.blank⟩
def Proj.lit (p : Proj) : Bool := p.type.lit
def Body.places (b : Body) : List Place :=
  b.indices.flatMap Decl.places ++ [.sort b.sort] ++ b.type.places ++ b.ctors.flatMap Ctor.places ++ b.projs.flatMap Proj.places
def Body.blank (b : Body) : Body :=
  ⟨b.name, b.indices.map Decl.blank, .sprop, b.type.blank, b.kelim, b.ctors.map Ctor.blank, b.projs.map Proj.blank, b.relevance⟩
def Body.lit (b : Body) : Bool := b.indices.any Decl.lit || b.type.lit || b.ctors.any Ctor.lit || b.projs.any Proj.lit
def UDecl.places : UDecl → List Place
  | .mono => []
  | .poly _ set => [.set set]
def UDecl.blank : UDecl → UDecl
  | .mono => .mono
  | .poly names _ => .poly names (.int 0)
def Glob.places : Glob → List Place
  | .const _ ty b u _ => ty.places ++ optPlaces b ++ u.places
  | .ind _ _ _ ps bs u _ => ps.flatMap Decl.places ++ bs.flatMap Body.places ++ u.places
def Glob.blank : Glob → Glob
  | .const kn ty b u r => .const kn ty.blank (b.map Tm.blank) u.blank r
  | .ind kn f n ps bs u v => .ind kn f n (ps.map Decl.blank) (bs.map Body.blank) u.blank v
def Glob.lit : Glob → Bool
  | .const _ ty b _ _ => ty.lit || optLit b
  | .ind _ _ _ ps bs _ _ => ps.any Decl.lit || bs.any Body.lit
def Prog.places (p : Prog) : List Place := [.set p.levels, .set p.cstrs] ++ p.decls.flatMap Glob.places ++ p.term.places
def Prog.blank (p : Prog) : Prog := ⟨.int 0, .int 0, p.decls.map Glob.blank, p.retro, p.term.blank⟩
def Prog.lit (p : Prog) : Bool := p.decls.any Glob.lit || p.term.lit

/-- Lists of places, one by one. -/
inductive AllSame : List Place → List Place → Prop
  | nil : AllSame [] []
  | cons {a b l l'} : Same a b → AllSame l l' → AllSame (a :: l) (b :: l')

theorem AllSame.app {a b c d} (h : AllSame a b) (h' : AllSame c d) : AllSame (a ++ c) (b ++ d) := by
  induction h with
  | nil => exact h'
  | cons h _ ih => exact .cons h ih

theorem same_sort (u : Srt) : AllSame [.sort u] [.sort (fixUniverse u)] := by
  refine .cons ?_ .nil
  cases u with
  | sprop => exact .sprop
  | ssprop => exact .ssprop
  | stype u => exact .stype ⟨_, rfl⟩ ⟨_, rfl⟩

theorem same_set (u : Ob) : Same (.set u) (.set (fixSet u)) := .set ⟨_, rfl⟩

theorem do_some {α β : Type} {x : Option α} {f : α → Option β} {y : β} (h : (do let a ← x; f a) = some y) : ∃ a, x = some a ∧ f a = some y := by
  cases x with
  | none => cases h
  | some a => exact ⟨a, rfl, h⟩

mutual
theorem fixTerm_ok {chk : Bool} : ∀ {t t' : Tm}, fixTerm chk t = some t' → AllSame t.places t'.places ∧ t'.blank = t.blank
  | .atom n, t', h => by simp only [fixTerm] at h; cases h; exact ⟨.nil, rfl⟩
  | .int n, t', h => by simp only [fixTerm] at h; split at h <;> cases h; exact ⟨.nil, rfl⟩
  | .float n, t', h => by simp only [fixTerm] at h; split at h <;> cases h; exact ⟨.nil, rfl⟩
  | .str n, t', h => by simp only [fixTerm] at h; split at h <;> cases h; exact ⟨.nil, rfl⟩
  | .sort u, t', h => by simp only [fixTerm] at h; cases h; exact ⟨by simpa [Tm.places] using same_sort u, by simp [Tm.blank]⟩
  | .evar k l, t', h => by
    simp only [fixTerm] at h
    obtain ⟨l', h1, h⟩ := do_some h
    cases h
    have := fixTerms_ok h1
    exact ⟨by simpa [Tm.places] using this.1, by simp [Tm.blank, this.2]⟩
  | .cast a k b, t', h => by
    simp only [fixTerm] at h
    obtain ⟨a', h1, h⟩ := do_some h
    obtain ⟨b', h2, h⟩ := do_some h
    cases h
    have h3 := fixTerm_ok h1
    have h4 := fixTerm_ok h2
    exact ⟨by simpa [Tm.places] using h3.1.app h4.1, by simp [Tm.blank, h3.2, h4.2]⟩
  | .prod k a b, t', h => by
    simp only [fixTerm] at h
    obtain ⟨a', h1, h⟩ := do_some h
    obtain ⟨b', h2, h⟩ := do_some h
    cases h
    have h3 := fixTerm_ok h1
    have h4 := fixTerm_ok h2
    exact ⟨by simpa [Tm.places] using h3.1.app h4.1, by simp [Tm.blank, h3.2, h4.2]⟩
  | .lam k a b, t', h => by
    simp only [fixTerm] at h
    obtain ⟨a', h1, h⟩ := do_some h
    obtain ⟨b', h2, h⟩ := do_some h
    cases h
    have h3 := fixTerm_ok h1
    have h4 := fixTerm_ok h2
    exact ⟨by simpa [Tm.places] using h3.1.app h4.1, by simp [Tm.blank, h3.2, h4.2]⟩
  | .letin k a b c, t', h => by
    simp only [fixTerm] at h
    obtain ⟨a', h1, h⟩ := do_some h
    obtain ⟨b', h2, h⟩ := do_some h
    obtain ⟨c', h3, h⟩ := do_some h
    cases h
    have h1 := fixTerm_ok h1
    have h2 := fixTerm_ok h2
    have h3 := fixTerm_ok h3
    exact ⟨by simpa [Tm.places] using h1.1.app (h2.1.app h3.1), by simp [Tm.blank, h1.2, h2.2, h3.2]⟩
  | .app a l, t', h => by
    simp only [fixTerm] at h
    obtain ⟨a', h1, h⟩ := do_some h
    obtain ⟨b', h2, h⟩ := do_some h
    cases h
    have h3 := fixTerm_ok h1
    have h4 := fixTerms_ok h2
    exact ⟨by simpa [Tm.places] using h3.1.app h4.1, by simp [Tm.blank, h3.2, h4.2]⟩
  | .case ci pi ps pc r c brs, t', h => by
    simp only [fixTerm] at h
    obtain ⟨ps', h1, h⟩ := do_some h
    obtain ⟨r', h2, h⟩ := do_some h
    obtain ⟨c', h3, h⟩ := do_some h
    obtain ⟨brs', h4, h⟩ := do_some h
    cases h
    have h1 := fixTerms_ok h1
    have h2 := fixTerm_ok h2
    have h3 := fixTerm_ok h3
    have h4 := fixBranches_ok h4
    exact ⟨by simpa [Tm.places] using h1.1.app (h2.1.app (h3.1.app h4.1)), by simp [Tm.blank, h1.2, h2.2, h3.2, h4.2]⟩
  | .proj p a, t', h => by
    simp only [fixTerm] at h
    obtain ⟨a', h1, h⟩ := do_some h
    cases h
    have := fixTerm_ok h1
    exact ⟨by simpa [Tm.places] using this.1, by simp [Tm.blank, this.2]⟩
  | .fix l i, t', h => by
    simp only [fixTerm] at h
    obtain ⟨a', h1, h⟩ := do_some h
    cases h
    have := fixDefs_ok h1
    exact ⟨by simpa [Tm.places] using this.1, by simp [Tm.blank, this.2]⟩
  | .cofix l i, t', h => by
    simp only [fixTerm] at h
    obtain ⟨a', h1, h⟩ := do_some h
    cases h
    have := fixDefs_ok h1
    exact ⟨by simpa [Tm.places] using this.1, by simp [Tm.blank, this.2]⟩
  | .array u v d ty, t', h => by
    simp only [fixTerm] at h
    obtain ⟨a', h1, h⟩ := do_some h
    obtain ⟨b', h2, h⟩ := do_some h
    obtain ⟨c', h3, h⟩ := do_some h
    cases h
    have h1 := fixTerms_ok h1
    have h2 := fixTerm_ok h2
    have h3 := fixTerm_ok h3
    exact ⟨by simpa [Tm.places] using h1.1.app (h2.1.app h3.1), by simp [Tm.blank, h1.2, h2.2, h3.2]⟩
theorem fixTerms_ok {chk : Bool} : ∀ {l l' : Tms}, fixTerms chk l = some l' → AllSame l.places l'.places ∧ l'.blank = l.blank
  | .nil, l', h => by simp only [fixTerms] at h; cases h; exact ⟨.nil, rfl⟩
  | .cons t l, l', h => by
    simp only [fixTerms] at h
    obtain ⟨a', h1, h⟩ := do_some h
    obtain ⟨b', h2, h⟩ := do_some h
    cases h
    have h3 := fixTerm_ok h1
    have h4 := fixTerms_ok h2
    exact ⟨by simpa [Tms.places] using h3.1.app h4.1, by simp [Tms.blank, h3.2, h4.2]⟩
theorem fixBranches_ok {chk : Bool} : ∀ {l l' : Brs}, fixBranches chk l = some l' → AllSame l.places l'.places ∧ l'.blank = l.blank
  | .nil, l', h => by simp only [fixBranches] at h; cases h; exact ⟨.nil, rfl⟩
  | .cons c t l, l', h => by
    simp only [fixBranches] at h
    obtain ⟨a', h1, h⟩ := do_some h
    obtain ⟨b', h2, h⟩ := do_some h
    cases h
    have h3 := fixTerm_ok h1
    have h4 := fixBranches_ok h2
    exact ⟨by simpa [Brs.places] using h3.1.app h4.1, by simp [Brs.blank, h3.2, h4.2]⟩
theorem fixDefs_ok {chk : Bool} : ∀ {l l' : Dfs}, fixDefs chk l = some l' → AllSame l.places l'.places ∧ l'.blank = l.blank
  | .nil, l', h => by simp only [fixDefs] at h; cases h; exact ⟨.nil, rfl⟩
  | .cons na a b r l, l', h => by
    simp only [fixDefs] at h
    obtain ⟨a', h1, h⟩ := do_some h
    obtain ⟨b', h2, h⟩ := do_some h
    obtain ⟨c', h3, h⟩ := do_some h
    cases h
    have h1 := fixTerm_ok h1
    have h2 := fixTerm_ok h2
    have h3 := fixDefs_ok h3
    exact ⟨by simpa [Dfs.places] using h1.1.app (h2.1.app h3.1), by simp [Dfs.blank, h1.2, h2.2, h3.2]⟩
end

theorem fixOption_ok {chk : Bool} {o o' : Option Tm} (h : fixOption chk o = some o') : AllSame (optPlaces o) (optPlaces o') ∧ o'.map Tm.blank = o.map Tm.blank := by
  cases o with
  | none => cases h; exact ⟨.nil, rfl⟩
  | some t =>
    obtain ⟨t', h1, h⟩ := do_some h
    cases h
    have := fixTerm_ok h1
    exact ⟨this.1, by simp [this.2]⟩

theorem mapL_ok {α : Type} {f : α → Option α} {P : α → List Place} {B : α → α} (hf : ∀ x y, f x = some y → AllSame (P x) (P y) ∧ B y = B x) :
    ∀ {l l' : List α}, mapL f l = some l' → AllSame (l.flatMap P) (l'.flatMap P) ∧ l'.map B = l.map B
  | [], l', h => by cases h; exact ⟨.nil, rfl⟩
  | x :: l, l', h => by
    simp only [mapL] at h
    obtain ⟨a', h1, h⟩ := do_some h
    obtain ⟨b', h2, h⟩ := do_some h
    cases h
    have h3 := hf _ _ h1
    have h4 := mapL_ok hf h2
    exact ⟨by simpa using h3.1.app h4.1, by simp [h3.2, h4.2]⟩

theorem fixDecl_ok {chk : Bool} (d d' : Decl) (h : fixDecl chk d = some d') : AllSame d.places d'.places ∧ d'.blank = d.blank := by
  obtain ⟨a', h1, h⟩ := do_some h
  obtain ⟨b', h2, h⟩ := do_some h
  cases h
  have h1 := fixOption_ok h1
  have h2 := fixTerm_ok h2
  exact ⟨h1.1.app h2.1, by simp only [Decl.blank]; rw [h1.2, h2.2]⟩

theorem fixCtor_ok {chk : Bool} (d d' : Ctor) (h : fixCtor chk d = some d') : AllSame d.places d'.places ∧ d'.blank = d.blank := by
  obtain ⟨a', h1, h⟩ := do_some h
  obtain ⟨b', h2, h⟩ := do_some h
  obtain ⟨c', h3, h⟩ := do_some h
  cases h
  have h1 := mapL_ok fixDecl_ok h1
  have h2 := mapL_ok (fun x y => fixTerm_ok) h2
  have h3 := fixTerm_ok h3
  exact ⟨(h1.1.app h2.1).app h3.1, by simp only [Ctor.blank]; rw [h1.2, h2.2, h3.2]⟩

theorem fixProj_ok {chk : Bool} (d d' : Proj) (h : fixProj chk d = some d') : AllSame d.places d'.places ∧ d'.blank = d.blank := by
  obtain ⟨a', h1, h⟩ := do_some h
  cases h
  have h1 := fixTerm_ok h1
  exact ⟨h1.1, by simp only [Proj.blank]; rw [h1.2]⟩

theorem fixBody_ok {chk : Bool} (d d' : Body) (h : fixBody chk d = some d') : AllSame d.places d'.places ∧ d'.blank = d.blank := by
  obtain ⟨a', h1, h⟩ := do_some h
  obtain ⟨b', h2, h⟩ := do_some h
  obtain ⟨c', h3, h⟩ := do_some h
  obtain ⟨e', h4, h⟩ := do_some h
  cases h
  have h1 := mapL_ok fixDecl_ok h1
  have h2 := fixTerm_ok h2
  have h3 := mapL_ok fixCtor_ok h3
  have h4 := mapL_ok fixProj_ok h4
  exact ⟨(((h1.1.app (same_sort _)).app h2.1).app h3.1).app h4.1, by simp only [Body.blank]; rw [h1.2, h2.2, h3.2, h4.2]⟩

theorem fixUDecl_ok (u : UDecl) : AllSame u.places (fixUDecl u).places ∧ (fixUDecl u).blank = u.blank := by
  cases u with
  | mono => exact ⟨.nil, rfl⟩
  | poly n s => exact ⟨.cons (same_set s) .nil, rfl⟩

theorem fixGlob_ok {chk : Bool} (d d' : Glob) (h : fixGlob chk d = some d') : AllSame d.places d'.places ∧ d'.blank = d.blank := by
  cases d with
  | const kn ty b u r =>
    obtain ⟨a', h1, h⟩ := do_some h
    obtain ⟨b', h2, h⟩ := do_some h
    cases h
    have h1 := fixTerm_ok h1
    have h2 := fixOption_ok h2
    exact ⟨(h1.1.app h2.1).app (fixUDecl_ok u).1, by simp only [Glob.blank]; rw [h1.2, h2.2, (fixUDecl_ok u).2]⟩
  | ind kn f n ps bs u v =>
    obtain ⟨a', h1, h⟩ := do_some h
    obtain ⟨b', h2, h⟩ := do_some h
    cases h
    have h1 := mapL_ok fixDecl_ok h1
    have h2 := mapL_ok fixBody_ok h2
    exact ⟨(h1.1.app h2.1).app (fixUDecl_ok u).1, by simp only [Glob.blank]; rw [h1.2, h2.2, (fixUDecl_ok u).2]⟩

/-! ## When there is an exception -/

theorem none_do {α β : Type} {f : α → Option β} : (do let a ← (none : Option α); f a) = none := rfl

theorem bind_isSome {α β : Type} {x : Option α} {g : α → Option β} {q : Bool} (h : ∀ a, (g a).isSome = q) :
    (x >>= g).isSome = (x.isSome && q) := by
  cases x with
  | none => simp
  | some a => simpa using h a

mutual
theorem fixTerm_some {chk : Bool} : ∀ t : Tm, (fixTerm chk t).isSome = !(chk && t.lit)
  | .atom n => by simp [fixTerm, Tm.lit]
  | .int n => by cases chk <;> simp [fixTerm, Tm.lit]
  | .float n => by cases chk <;> simp [fixTerm, Tm.lit]
  | .str n => by cases chk <;> simp [fixTerm, Tm.lit]
  | .sort u => by simp [fixTerm, Tm.lit]
  | .evar k l => by
    rw [fixTerm, bind_isSome (q := true) (fun _ => rfl), fixTerms_some l, Tm.lit, Bool.and_true]
  | .cast a k b => by
    rw [fixTerm, bind_isSome (fun _ => bind_isSome (q := true) (fun _ => rfl)), fixTerm_some a, fixTerm_some b, Tm.lit]
    cases chk <;> simp
  | .prod k a b => by
    rw [fixTerm, bind_isSome (fun _ => bind_isSome (q := true) (fun _ => rfl)), fixTerm_some a, fixTerm_some b, Tm.lit]
    cases chk <;> simp
  | .lam k a b => by
    rw [fixTerm, bind_isSome (fun _ => bind_isSome (q := true) (fun _ => rfl)), fixTerm_some a, fixTerm_some b, Tm.lit]
    cases chk <;> simp
  | .letin k a b c => by
    rw [fixTerm, bind_isSome (fun _ => bind_isSome (fun _ => bind_isSome (q := true) (fun _ => rfl))), fixTerm_some a, fixTerm_some b, fixTerm_some c, Tm.lit]
    cases chk <;> simp [Bool.and_assoc]
  | .app a l => by
    rw [fixTerm, bind_isSome (fun _ => bind_isSome (q := true) (fun _ => rfl)), fixTerm_some a, fixTerms_some l, Tm.lit]
    cases chk <;> simp
  | .case ci pi ps pc r c brs => by
    rw [fixTerm, bind_isSome (fun _ => bind_isSome (fun _ => bind_isSome (fun _ => bind_isSome (q := true) (fun _ => rfl)))), fixTerms_some ps, fixTerm_some r,
      fixTerm_some c, fixBranches_some brs, Tm.lit]
    cases chk <;> simp [Bool.and_assoc]
  | .proj p a => by
    rw [fixTerm, bind_isSome (q := true) (fun _ => rfl), fixTerm_some a, Tm.lit, Bool.and_true]
  | .fix l i => by
    rw [fixTerm, bind_isSome (q := true) (fun _ => rfl), fixDefs_some l, Tm.lit, Bool.and_true]
  | .cofix l i => by
    rw [fixTerm, bind_isSome (q := true) (fun _ => rfl), fixDefs_some l, Tm.lit, Bool.and_true]
  | .array u v a b => by
    rw [fixTerm, bind_isSome (fun _ => bind_isSome (fun _ => bind_isSome (q := true) (fun _ => rfl))), fixTerms_some v, fixTerm_some a, fixTerm_some b, Tm.lit]
    cases chk <;> simp [Bool.and_assoc]
theorem fixTerms_some {chk : Bool} : ∀ l : Tms, (fixTerms chk l).isSome = !(chk && l.lit)
  | .nil => by simp [fixTerms, Tms.lit]
  | .cons a l => by
    rw [fixTerms, bind_isSome (fun _ => bind_isSome (q := true) (fun _ => rfl)), fixTerm_some a, fixTerms_some l, Tms.lit]
    cases chk <;> simp
theorem fixBranches_some {chk : Bool} : ∀ l : Brs, (fixBranches chk l).isSome = !(chk && l.lit)
  | .nil => by simp [fixBranches, Brs.lit]
  | .cons c a l => by
    rw [fixBranches, bind_isSome (fun _ => bind_isSome (q := true) (fun _ => rfl)), fixTerm_some a, fixBranches_some l, Brs.lit]
    cases chk <;> simp
theorem fixDefs_some {chk : Bool} : ∀ l : Dfs, (fixDefs chk l).isSome = !(chk && l.lit)
  | .nil => by simp [fixDefs, Dfs.lit]
  | .cons na a b r l => by
    rw [fixDefs, bind_isSome (fun _ => bind_isSome (fun _ => bind_isSome (q := true) (fun _ => rfl))), fixTerm_some a, fixTerm_some b, fixDefs_some l, Dfs.lit]
    cases chk <;> simp [Bool.and_assoc]
end

theorem fixOption_some {chk : Bool} (o : Option Tm) : (fixOption chk o).isSome = !(chk && optLit o) := by
  cases o with
  | none => simp [fixOption, optLit]
  | some t => rw [fixOption, bind_isSome (q := true) (fun _ => rfl), fixTerm_some t, optLit, Bool.and_true]

theorem mapL_some {α : Type} {f : α → Option α} {chk : Bool} {L : α → Bool} (hf : ∀ x, (f x).isSome = !(chk && L x)) :
    ∀ l : List α, (mapL f l).isSome = !(chk && l.any L)
  | [] => by simp [mapL]
  | x :: l => by
    rw [mapL, bind_isSome (fun _ => bind_isSome (q := true) (fun _ => rfl)), hf x, mapL_some hf l, List.any_cons]
    cases chk <;> simp

theorem fixDecl_some {chk : Bool} (d : Decl) : (fixDecl chk d).isSome = !(chk && d.lit) := by
  rw [fixDecl, bind_isSome (fun _ => bind_isSome (q := true) (fun _ => rfl)), fixOption_some, fixTerm_some, Decl.lit]
  cases chk <;> simp

theorem fixCtor_some {chk : Bool} (d : Ctor) : (fixCtor chk d).isSome = !(chk && d.lit) := by
  rw [fixCtor, bind_isSome (fun _ => bind_isSome (fun _ => bind_isSome (q := true) (fun _ => rfl))), fixContext, mapL_some fixDecl_some, mapL_some fixTerm_some,
    fixTerm_some, Ctor.lit]
  cases chk <;> simp [Bool.and_assoc]

theorem fixProj_some {chk : Bool} (d : Proj) : (fixProj chk d).isSome = !(chk && d.lit) := by
  rw [fixProj, bind_isSome (q := true) (fun _ => rfl), fixTerm_some, Proj.lit, Bool.and_true]

theorem fixBody_some {chk : Bool} (d : Body) : (fixBody chk d).isSome = !(chk && d.lit) := by
  rw [fixBody, bind_isSome (fun _ => bind_isSome (fun _ => bind_isSome (fun _ => bind_isSome (q := true) (fun _ => rfl)))), fixContext, mapL_some fixDecl_some,
    fixTerm_some, mapL_some fixCtor_some, mapL_some fixProj_some, Body.lit]
  cases chk <;> simp [Bool.and_assoc]

theorem fixGlob_some {chk : Bool} (d : Glob) : (fixGlob chk d).isSome = !(chk && d.lit) := by
  cases d with
  | const kn ty b u r =>
    rw [fixGlob, bind_isSome (fun _ => bind_isSome (q := true) (fun _ => rfl)), fixTerm_some, fixOption_some, Glob.lit]
    cases chk <;> simp
  | ind kn f n ps bs u v =>
    rw [fixGlob, bind_isSome (fun _ => bind_isSome (q := true) (fun _ => rfl)), fixContext, mapL_some fixDecl_some, mapL_some fixBody_some, Glob.lit]
    cases chk <;> simp

theorem fixProgram_some {chk : Bool} (p : Prog) : (fixProgram chk p).isSome = !(chk && p.lit) := by
  rw [fixProgram, bind_isSome (fun _ => bind_isSome (q := true) (fun _ => rfl)), fixTerm_some, mapL_some fixGlob_some, Prog.lit]
  cases chk <;> simp [Bool.and_comm]

theorem fixProgram_ok {chk : Bool} {p p' : Prog} (h : fixProgram chk p = some p') : AllSame p.places p'.places ∧ p'.blank = p.blank := by
  obtain ⟨a', h1, h⟩ := do_some h
  obtain ⟨b', h2, h⟩ := do_some h
  cases h
  have h1 := fixTerm_ok h1
  have h2 := mapL_ok fixGlob_ok h2
  exact ⟨(AllSame.app (.cons (same_set _) (.cons (same_set _) .nil)) h2.1).app h1.1, by simp only [Prog.blank]; rw [h1.2, h2.2]⟩

/-! ## Theorems -/

/-- Every program reaches the compiled compiler with all universes and sets as compiled programs have them, and otherwise unchanged. -/
theorem C81_compiler (p : Prog) : ∃ p', fixProgram false p = some p' ∧ AllSame p.places p'.places ∧ p'.blank = p.blank := by
  have h := fixProgram_some (chk := false) p
  simp only [Bool.false_and, Bool.not_false] at h
  obtain ⟨p', h⟩ := Option.isSome_iff_exists.1 h
  exact ⟨p', h, fixProgram_ok h⟩

/-- Programs without literals reach the compiled checker in the same way. -/
theorem C81_checker_partial (p : Prog) (hp : p.lit = false) : ∃ p', fixProgram true p = some p' ∧ AllSame p.places p'.places ∧ p'.blank = p.blank := by
  have h := fixProgram_some (chk := true) p
  simp only [hp, Bool.and_false, Bool.not_false] at h
  obtain ⟨p', h⟩ := Option.isSome_iff_exists.1 h
  exact ⟨p', h, fixProgram_ok h⟩

/-- Exactly the programs with a literal anywhere do not reach the checker. -/
theorem C81_checker_iff (p : Prog) : fixProgram true p = none ↔ p.lit = true := by
  have h := fixProgram_some (chk := true) p
  rw [← Option.isNone_iff_eq_none, Option.isNone_iff_eq_none, ← Option.not_isSome_iff_eq_none, h]
  simp

/-- A program that is a literal. -/
def seven : Prog := ⟨.raw 0, .raw 0, [], 0, .int 7⟩

/-- The checker raises an exception where the compiler works. -/
theorem C81_literal_refuted : fixProgram true seven = none ∧ (fixProgram false seven).isSome = true := by decide

/-- A program with a polymorphic constant, an inductive type and a sort under a binder. -/
def sample : Prog where
  levels := .raw 1
  cstrs := .raw 2
  decls := [.const 3 (.sort (.stype (.raw 4))) (some (.lam 0 (.sort .sprop) (.atom 0))) (.poly 5 (.raw 6)) 0,
    .ind 7 0 0 [] [⟨8, [], .stype (.raw 9), .sort (.stype (.raw 9)), 0, [⟨10, [⟨11, none, .atom 12⟩], [], .atom 13, 1⟩], [], 0⟩] .mono 0]
  retro := 0
  term := .app (.atom 3) (.cons (.prod 0 (.sort (.stype (.raw 14))) (.atom 15)) .nil)

example : sample.lit = false ∧ sample.places.length = 8 ∧
    (∃ p', fixProgram true sample = some p' ∧ p'.places.getLast? = some (.sort (.stype (.pair (.pair (.raw 14) (.int 1)) (.int 1))))) :=
  ⟨by decide, by decide, _, rfl, by decide⟩

end Quote
