import Mathlib.Tactic.Ring
import Mathlib.Tactic.Linarith
import Mathlib.Algebra.BigOperators.Intervals

/-!
# Byte memory and the nursery, for the runtime primitives that allocate

A small byte-level memory (little-endian, as on x86-64). A store outside the free part of the nursery
(`alloc ≤ a < limit`, see `runtime/gc_stack.h`, `struct thread_info`) is not allowed to a primitive: it yields `none`
(C undefined behaviour, or corruption of another object).
-/

namespace RT

/-- Memory: the byte (a number below 256) at each address. -/
abbrev Mem := Nat → Nat

def upd (m : Mem) (a b : Nat) : Mem := fun x => if x = a then b else m x

/-- The fields of `struct thread_info` used by allocating primitives (gc_stack.h: `alloc`, `limit`), as byte addresses,
and the memory. -/
structure St where
  mem : Mem
  alloc : Nat
  limit : Nat

/-- A byte store by a primitive: only into the free part of the nursery. -/
def putByte (s : St) (a b : Nat) : Option St :=
  if s.alloc ≤ a ∧ a < s.limit then some { s with mem := upd s.mem a (b % 256) } else none

/-- Byte stores at consecutive addresses. -/
def putBytes (s : St) (a : Nat) : List Nat → Option St
  | [] => some s
  | b :: bs => (putByte s a b).bind fun s => putBytes s (a + 1) bs

/-- The eight bytes of a 64-bit word, little-endian. -/
def wordBytes (w : Nat) : List Nat :=
  [w % 256, w / 2^8 % 256, w / 2^16 % 256, w / 2^24 % 256, w / 2^32 % 256, w / 2^40 % 256, w / 2^48 % 256,
   w / 2^56 % 256]

/-- A 64-bit store. -/
def putWord (s : St) (a w : Nat) : Option St := putBytes s a (wordBytes w)

/-- A 64-bit load. -/
def getWord (m : Mem) (a : Nat) : Nat :=
  m a + 2^8 * m (a+1) + 2^16 * m (a+2) + 2^24 * m (a+3) + 2^32 * m (a+4) + 2^40 * m (a+5) + 2^48 * m (a+6) +
    2^56 * m (a+7)

/-- The collector as seen from a primitive: called with the number of words wanted (`tinfo->nalloc`), it returns a new
state. It may move every object, so nothing is assumed about the memory; what is assumed (and proved for the model of
the collector, `GC.C12_space`) is that the requested space is there. -/
def GcOK (gc : St → Nat → St) : Prop := ∀ s n, (gc s n).alloc + 8 * n ≤ (gc s n).limit

/-- `if (!(n <= limit - alloc)) { tinfo->nalloc = n; garbage_collect(tinfo); alloc = ..; limit = ..; }`. -/
def reserve (gc : St → Nat → St) (s : St) (n : Nat) : St :=
  if s.alloc + 8 * n ≤ s.limit then s else gc s n

/-! ## Lemmas -/

theorem reserve_room {gc : St → Nat → St} (h : GcOK gc) (s : St) (n : Nat) :
    (reserve gc s n).alloc + 8 * n ≤ (reserve gc s n).limit := by
  unfold reserve
  by_cases c : s.alloc + 8 * n ≤ s.limit
  · rw [if_pos c]; exact c
  · rw [if_neg c]; exact h s n

/-- Effect of consecutive byte stores. -/
theorem putBytes_ok (s : St) (a : Nat) (bs : List Nat) (h1 : s.alloc ≤ a) (h2 : a + bs.length ≤ s.limit) :
    ∃ m, putBytes s a bs = some { s with mem := m } ∧
      (∀ (i : Nat) (h : i < bs.length), m (a + i) = bs[i] % 256) ∧
      (∀ x, (x < a ∨ a + bs.length ≤ x) → m x = s.mem x) := by
  induction bs generalizing s a with
  | nil => exact ⟨s.mem, rfl, fun i h => absurd h (Nat.not_lt_zero i), fun _ _ => rfl⟩
  | cons b bs ih =>
    simp only [List.length_cons] at h2
    have hp : putByte s a b = some { s with mem := upd s.mem a (b % 256) } := if_pos ⟨h1, by omega⟩
    obtain ⟨m, e, g, o⟩ := ih { s with mem := upd s.mem a (b % 256) } (a + 1) (Nat.le_succ_of_le h1)
      (by show _ ≤ s.limit; omega)
    refine ⟨m, by rw [putBytes, hp]; exact e, ?_, ?_⟩
    · intro i hi
      cases i with
      | zero =>
        rw [Nat.add_zero, o a (by omega)]
        simp [upd]
      | succ i =>
        have := g i (by simpa using hi)
        rw [show a + (i + 1) = a + 1 + i by omega, this]
        simp
    · intro x hx
      simp only [List.length_cons] at hx
      rw [o x (by omega)]
      have : x ≠ a := by omega
      simp [upd, this]

theorem getWord_wordBytes (m : Mem) (a w : Nat) (hw : w < 2^64)
    (h : ∀ (i : Nat) (hi : i < (wordBytes w).length), m (a + i) = (wordBytes w)[i] % 256) : getWord m a = w := by
  have h0 := h 0 (by simp [wordBytes])
  have h1 := h 1 (by simp [wordBytes])
  have h2 := h 2 (by simp [wordBytes])
  have h3 := h 3 (by simp [wordBytes])
  have h4 := h 4 (by simp [wordBytes])
  have h5 := h 5 (by simp [wordBytes])
  have h6 := h 6 (by simp [wordBytes])
  have h7 := h 7 (by simp [wordBytes])
  simp only [wordBytes, List.getElem_cons_succ, List.getElem_cons_zero, Nat.add_zero] at h0 h1 h2 h3 h4 h5 h6 h7
  unfold getWord
  rw [h0, h1, h2, h3, h4, h5, h6, h7]
  omega

theorem putWord_ok (s : St) (a w : Nat) (hw : w < 2^64) (h1 : s.alloc ≤ a) (h2 : a + 8 ≤ s.limit) :
    ∃ m, putWord s a w = some { s with mem := m } ∧ getWord m a = w ∧
      (∀ x, (x < a ∨ a + 8 ≤ x) → m x = s.mem x) := by
  obtain ⟨m, e, g, o⟩ := putBytes_ok s a (wordBytes w) h1 (by simpa [wordBytes] using h2)
  exact ⟨m, e, getWord_wordBytes m a w hw g, fun x hx => o x (by simpa [wordBytes] using hx)⟩

theorem getWord_congr {m m' : Mem} {a : Nat} (h : ∀ x, a ≤ x → x < a + 8 → m x = m' x) : getWord m a = getWord m' a := by
  unfold getWord
  rw [h a, h (a+1), h (a+2), h (a+3), h (a+4), h (a+5), h (a+6), h (a+7)] <;> omega

theorem putByte_out (s : St) (a b : Nat) (h : s.limit ≤ a) : putByte s a b = none :=
  if_neg (by omega)

theorem putWord_out (s : St) (a w : Nat) (h : s.limit ≤ a) : putWord s a w = none := by
  unfold putWord wordBytes putBytes
  rw [putByte_out s a _ h]; rfl

end RT
