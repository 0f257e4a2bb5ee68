import Verif.Bnd.Model

/-!
# C74: numbers and strings are the same on both sides
-/

namespace Bnd

/-- The number a `positive` stands for. -/
def Pos.val : Pos → Nat
  | .xI p => 2 * p.val + 1
  | .xO p => 2 * p.val
  | .xH => 1

/-- The number a `Z` stands for. -/
def Z.val : Z → Int
  | .Z0 => 0
  | .Zpos p => p.val
  | .Zneg p => -p.val

/-- The number an `N` stands for. -/
def N.val : N → Nat
  | .N0 => 0
  | .Npos p => p.val

theorem succ_val (p : Pos) : p.succ.val = p.val + 1 := by
  induction p with
  | xI p ih => simp [Pos.succ, Pos.val, ih]; omega
  | xO p => simp [Pos.succ, Pos.val]
  | xH => rfl

theorem pToInt_eq (p : Pos) : pToInt p = BitVec.ofNat 63 p.val := by
  induction p with
  | xI p ih => simp only [pToInt, Pos.val, ih]; apply BitVec.eq_of_toNat_eq; simp [BitVec.toNat_add]; omega
  | xO p ih => simp only [pToInt, Pos.val, ih]; apply BitVec.eq_of_toNat_eq; simp [BitVec.toNat_add]; omega
  | xH => rfl

theorem pToInt64_eq (p : Pos) : pToInt64 p = BitVec.ofNat 64 p.val := by
  induction p with
  | xI p ih => simp only [pToInt64, Pos.val, ih]; apply BitVec.eq_of_toNat_eq; simp [BitVec.toNat_add]; omega
  | xO p ih => simp only [pToInt64, Pos.val, ih]; apply BitVec.eq_of_toNat_eq; simp [BitVec.toNat_add]; omega
  | xH => rfl

theorem small_toInt {n : Nat} (h : n < 2 ^ 62) : (BitVec.ofNat 63 n).toInt = n := by
  rw [BitVec.toInt_eq_toNat_of_lt] <;> simp <;> omega

theorem zToInt_eq (z : Z) : zToInt z = BitVec.ofInt 63 z.val := by
  cases z with
  | Z0 => rfl
  | Zpos p => simp [zToInt, Z.val, pToInt_eq]
  | Zneg p => rw [zToInt, pToInt_eq, Z.val, BitVec.ofInt_neg]; simp

theorem zToInt64_eq (z : Z) : zToInt64 z = BitVec.ofInt 64 z.val := by
  cases z with
  | Z0 => rfl
  | Zpos p => simp [zToInt64, Z.val, pToInt64_eq]
  | Zneg p => rw [zToInt64, pToInt64_eq, Z.val, BitVec.ofInt_neg]; simp

/-- **C74** identifiers: different `positive` numbers below 2^63 are different OCaml integers, so that the names of identifiers are not mixed up; below
2^62 the integer is the number. -/
theorem C74_positive (p : Pos) : (pToInt p).toNat = p.val % 2 ^ 63 ∧ (p.val < 2 ^ 62 → (pToInt p).toInt = p.val) := by
  rw [pToInt_eq]
  refine ⟨by simp, fun h => ?_⟩
  exact small_toInt h

/-- **C74** numbers without sign arrive as they are below 2^62, and modulo 2^63 in general. -/
theorem C74_n (x : N) : (nToInt x).toNat = x.val % 2 ^ 63 ∧ (x.val < 2 ^ 62 → (nToInt x).toInt = x.val) := by
  cases x with
  | N0 => exact ⟨rfl, fun _ => rfl⟩
  | Npos p => exact C74_positive p

/-- **C74** constants of 64 bits: every number of the range of `Int64` arrives as the same word. -/
theorem C74_int64 (z : Z) : camlint64 z = BitVec.ofInt 64 z.val := zToInt64_eq z

/-- **C74** constants of 32 bits: the way through OCaml's integers of 63 bits changes nothing, for all numbers. -/
theorem C74_int32 (z : Z) : camlint z = BitVec.ofInt 32 z.val := by
  rw [camlint, zToInt_eq]
  apply BitVec.eq_of_toInt_eq
  rw [BitVec.toInt_setWidth, BitVec.toInt_ofInt]
  have h : (BitVec.ofInt 63 z.val).toNat = (z.val % 2 ^ 63).toNat := by simp [BitVec.toNat_ofInt]
  rw [h]
  have h1 : (((z.val % 2 ^ 63).toNat : Nat) : Int) = z.val % 2 ^ 63 := Int.toNat_of_nonneg (Int.emod_nonneg _ (by decide))
  rw [h1]
  simp only [Int.bmod_def]
  have h2 : z.val % 2 ^ 63 % ((2 ^ 32 : Nat) : Int) = z.val % ((2 ^ 32 : Nat) : Int) := Int.emod_emod_of_dvd _ ⟨2 ^ 31, by decide⟩
  rw [h2]

theorem natToInt_eq (n : Nat) : natToInt n = BitVec.ofNat 63 n := by
  induction n with
  | zero => rfl
  | succ n ih => rw [natToInt, ih]; apply BitVec.eq_of_toNat_eq; simp [BitVec.toNat_add]

theorem camlIntOfNatAux_eq (n : Nat) (acc : BitVec 63) : camlIntOfNatAux n acc = acc + BitVec.ofNat 63 n := by
  induction n generalizing acc with
  | zero => simp [camlIntOfNatAux]
  | succ n ih => rw [camlIntOfNatAux, ih]; apply BitVec.eq_of_toNat_eq; simp [BitVec.toNat_add]; omega

theorem natOfCamlIntAux_eq (k acc : Nat) (i : Int) (h : i < k) : natOfCamlIntAux k acc i = acc + (i + 1).toNat := by
  induction k generalizing acc i with
  | zero => simp [natOfCamlIntAux]; omega
  | succ k ih =>
    rw [natOfCamlIntAux]
    split
    · omega
    · rw [ih _ _ (by omega)]; omega

/-- **C74** `nat`: a number that is not negative arrives as itself, and comes back unless it is larger than OCaml's integers; the two functions to OCaml agree. -/
theorem C74_nat (n : Nat) : natOfCamlInt n = n ∧ camlIntOfNat n = natToInt n ∧ (n < 2 ^ 62 → (camlIntOfNat n).toInt = n) := by
  refine ⟨?_, ?_, fun h => ?_⟩
  · rw [natOfCamlInt, natOfCamlIntAux_eq _ _ _ (by omega)]; omega
  · rw [camlIntOfNat, camlIntOfNatAux_eq, natToInt_eq]; simp
  · rw [camlIntOfNat, camlIntOfNatAux_eq, show (0 : BitVec 63) + BitVec.ofNat 63 n = BitVec.ofNat 63 n from BitVec.zero_add _]; exact small_toInt h

/-- **C74** bytes: the tables are right for all bytes. -/
theorem C74_bytes : ∀ b, b < 256 → charOfByte b = some b ∧ byteOfChar b = some b := by decide +kernel

theorem lengthAux_eq (s : List Nat) (acc : Nat) : lengthAux s acc = acc + s.length := by
  induction s generalizing acc with
  | nil => rfl
  | cons c s ih => rw [lengthAux, ih, List.length_cons]; omega

theorem fill_eq (s pre post : List Nat) (hs : ∀ b ∈ s, b < 256) (hl : post.length = s.length) :
    fill (pre ++ post) pre.length s = some (pre ++ s) := by
  induction s generalizing pre post with
  | nil =>
    have : post = [] := List.length_eq_zero_iff.1 hl
    simp [fill, this]
  | cons c s ih =>
    cases post with
    | nil => simp at hl
    | cons x post =>
      rw [fill, (C74_bytes c (hs c (by simp))).1]
      simp only [List.length_append, List.length_cons, Nat.lt_add_right_iff_pos, Nat.zero_lt_succ, if_true]
      have e : (pre ++ x :: post).set pre.length c = (pre ++ [c]) ++ post := by simp
      have := ih (pre ++ [c]) post (fun b hb => hs b (by simp [hb])) (by simpa using hl)
      rw [e]
      simpa using this

theorem byteStringAux_eq (s acc : List Nat) (i : Nat) (hs : ∀ b ∈ s, b < 256) (hi : i ≤ s.length) : byteStringAux s acc i = some (s.take i ++ acc) := by
  induction i generalizing acc with
  | zero => simp [byteStringAux]
  | succ i ih =>
    have h : i < s.length := by omega
    rw [byteStringAux, List.getElem?_eq_getElem h]
    simp only [(C74_bytes s[i] (hs _ (List.getElem_mem h))).2]
    rw [ih _ (by omega), show s.take (i + 1) = s.take i ++ [s[i]] from (List.take_append_getElem h).symm, List.append_assoc]
    rfl

/-- **C74** strings of bytes: in both directions the characters are the bytes in order, whatever the new buffer held, and nothing is written outside it. -/
theorem C74_bytestring (junk : Nat → Nat) (s : List Nat) (hs : ∀ b ∈ s, b < 256) : camlString junk s = some s ∧ byteString s = some s := by
  refine ⟨?_, ?_⟩
  · have := fill_eq s [] ((List.range (lengthAux s 0)).map junk) hs (by simp [lengthAux_eq])
    simpa [camlString] using this
  · rw [byteString, byteStringAux_eq s [] _ hs (Nat.le_refl _)]; simp

theorem pOfInt_val (n : Nat) : (pOfInt n).val = n + 1 := by
  induction n with
  | zero => rfl
  | succ n ih => rw [pOfInt, succ_val, ih]

/-- **C74 refuted** for numbers from OCaml to Rocq: `P.of_int` and `N.of_int` give the next number (`N.of_int` for all but 0). -/
theorem C74_of_int_refuted (n : Nat) : (pOfInt n).val = n + 1 ∧ (n ≠ 0 → (nOfInt n).val = n + 1) := by
  refine ⟨pOfInt_val n, fun h => ?_⟩
  rw [nOfInt, if_neg h, N.val, pOfInt_val]

theorem pVal8_eq (p : Pos) : pVal8 p = p.val := by
  induction p with
  | xI p ih => rw [pVal8, ih, Pos.val]
  | xO p ih => rw [pVal8, ih, Pos.val]
  | xH => rfl

theorem asciiOfChar_eq {c : Nat} (h : c ≠ 0) : asciiOfChar c = (c + 1) % 256 := by
  rw [asciiOfChar, nOfInt, if_neg h, asciiOfN, pVal8_eq, pOfInt_val]

theorem coqStringAux_eq (s acc : List Nat) (i : Nat) (hi : i ≤ s.length) : coqStringAux s acc i = some ((s.take i).map asciiOfChar ++ acc) := by
  induction i generalizing acc with
  | zero => simp [coqStringAux]
  | succ i ih =>
    have h : i < s.length := by omega
    rw [coqStringAux, List.getElem?_eq_getElem h]
    simp only []
    rw [ih _ (by omega), show s.take (i + 1) = s.take i ++ [s[i]] from (List.take_append_getElem h).symm, List.map_append, List.append_assoc]
    rfl

/-- **C74 refuted** for strings of `ascii` from OCaml to Rocq: every character but the null character becomes the next one, so that only strings of null
characters arrive unchanged. -/
theorem C74_coqstring_refuted (s : List Nat) (hs : ∀ c ∈ s, c < 256) : coqString s = some s ↔ ∀ c ∈ s, c = 0 := by
  rw [coqString, coqStringAux_eq s [] _ (Nat.le_refl _)]
  simp only [List.take_length, List.append_nil, Option.some.injEq]
  constructor
  · intro h c hc
    by_contra h0
    obtain ⟨i, hi, rfl⟩ := List.mem_iff_getElem.1 hc
    have : (s.map asciiOfChar)[i]'(by simpa using hi) = s[i] := by simp only [h]
    rw [List.getElem_map, asciiOfChar_eq h0] at this
    have := hs _ hc
    omega
  · intro h
    conv_rhs => rw [← List.map_id s]
    apply List.map_congr_left
    intro c hc
    rw [h c hc]
    rfl

/-- Examples: a constant above 2^31, a string, and the wrong string. -/
example : camlint (.Zpos (.xI .xH)) = 3 ∧ camlint64 (.Zneg (.xO .xH)) = -2 ∧ camlString (fun _ => 7) [72, 105] = some [72, 105] ∧ coqString [72, 105] = some [73, 106] := by
  decide +kernel

end Bnd
