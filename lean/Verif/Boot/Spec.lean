import Verif.Boot.Model

/-!
# What OCaml's runtime does, and what a copy is
-/

namespace Boot

mutual
/-- Data: integers (as odd words) and constructors with a tag. -/
inductive Data
  | imm (v : Nat)
  | blk (tag : Nat) (ds : Datas)
/-- Lists of data. -/
inductive Datas
  | nil
  | cons (d : Data) (ds : Datas)
end

/-- Number of elements. -/
def Datas.len : Datas → Nat
  | .nil => 0
  | .cons _ ds => ds.len + 1

mutual
/-- The value `v` in the heap `H` is the data `d`, whose blocks are at the addresses `A`, in order. -/
def Tree (H : Heap) : Data → Nat → List Nat → Prop
  | .imm x, v, A => v = x ∧ v % 2 = 1 ∧ A = []
  | .blk tag ds, v, A => v % 2 = 0 ∧ ∃ vs A', H v = some ⟨tag, vs⟩ ∧ A = v :: A' ∧ Trees H ds vs A'
/-- The same for lists. -/
def Trees (H : Heap) : Datas → List Nat → List Nat → Prop
  | .nil, vs, A => vs = [] ∧ A = []
  | .cons d ds, vs, A => ∃ v vs' A₁ A₂, vs = v :: vs' ∧ A = A₁ ++ A₂ ∧ Tree H d v A₁ ∧ Trees H ds vs' A₂
end

mutual
/-- Tags are those of constructors, and blocks have fewer than 2^31 words. -/
def Data.Ok : Data → Prop
  | .imm _ => True
  | .blk tag ds => tag < 251 ∧ ds.len < 2 ^ 31 ∧ ds.Ok
/-- The same for lists. -/
def Datas.Ok : Datas → Prop
  | .nil => True
  | .cons d ds => d.Ok ∧ ds.Ok
end

/-- The blocks of the OCaml heap that the collector finds. -/
inductive Reach (H : Heap) (roots : List Nat) : Nat → Prop
  | root {a} : a ∈ roots → a % 2 = 0 → H a ≠ none → Reach H roots a
  | field {a b c} : Reach H roots a → H a = some b → b.tag < noScan → c ∈ b.fields → c % 2 = 0 → H c ≠ none → Reach H roots c

/-- Where a word is after blocks have moved: integers and addresses outside the heap stay. -/
def moved (H : Heap) (ρ : Nat → Nat) (v : Nat) : Nat := if v % 2 = 1 ∨ H v = none then v else ρ v

/-- A block after blocks have moved. -/
def Block.moved (H : Heap) (ρ : Nat → Nat) (b : Block) : Block := if b.tag < noScan then ⟨b.tag, b.fields.map (Boot.moved H ρ)⟩ else b

/-- What OCaml's allocator does: the blocks that are found are moved to new addresses, the registered variables follow, everything else may
be gone; the new block is at an address not in use.  Nothing is ever put where other memory `R` is. -/
structure Law (R : Heap) (al : Alloc) : Prop where
  ok : ∀ t H roots size tag, (∀ a, R a ≠ none → H a = none) → ∃ (H' : Heap) (n : Nat) (ρ : Nat → Nat),
    al t H roots size tag = (H', roots.map (moved H ρ), n) ∧
    n % 2 = 0 ∧ H' n = some ⟨tag, List.replicate size unit⟩ ∧
    (∀ a b, Reach H roots a → H a = some b → ρ a % 2 = 0 ∧ ρ a ≠ n ∧ H' (ρ a) = some (b.moved H ρ)) ∧
    (∀ a b, Reach H roots a → Reach H roots b → ρ a = ρ b → a = b) ∧ ∀ a, R a ≠ none → H' a = none

end Boot
