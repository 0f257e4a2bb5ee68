import Verif.Runtime.Mem

/-! # Specification of primitive strings in memory -/

namespace RT

/-- The OCaml layout of a byte string: a header with tag 252 (`String_tag`, no-scan) and the number of words; the
bytes; zero padding; and in the last byte of the last word the number of padding bytes before it. `p` is the address of
the first byte. -/
structure IsString (m : Mem) (p : Nat) (bs : List Nat) : Prop where
  header : getWord m (p - 8) = (bs.length / 8 + 1) * 1024 + 252
  bytes : ∀ (i : Nat) (h : i < bs.length), m (p + i) = bs[i]
  padding : ∀ i, bs.length ≤ i → i < 8 * (bs.length / 8 + 1) - 1 → m (p + i) = 0
  last : m (p + (8 * (bs.length / 8 + 1) - 1)) = 7 - bs.length % 8

/-- All elements are bytes. -/
def Bytes (bs : List Nat) : Prop := ∀ b ∈ bs, b < 256

instance (bs : List Nat) : Decidable (Bytes bs) := by unfold Bytes; infer_instance

/-- Lexicographic comparison of byte strings (`PString.compare`). -/
def lexLt : List Nat → List Nat → Prop
  | _, [] => False
  | [], _ :: _ => True
  | a :: as, b :: bs => a < b ∨ (a = b ∧ lexLt as bs)

end RT
