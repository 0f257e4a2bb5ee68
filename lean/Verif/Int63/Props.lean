import Verif.Int63.Lemmas

/-!
# C01–C08, C10: the C int63 primitives against `Uint63`

Every theorem quantifies over all primitive integers `x, y < 2^63`; `word n` is the tagged word of `n`.
-/

namespace Int63
open Uint63

/-! ## C01 -/

theorem C01_add {x y : Nat} (hx : x < 2^63) (hy : y < 2^63) :
    add (word x) (word y) = word (Uint63.add x y) := by
  apply valLong_eq
  rw [BitVec.toNat_add, ulongVal_word hx, ulongVal_word hy]
  unfold Uint63.add B; omega

theorem C01_sub {x y : Nat} (hx : x < 2^63) (hy : y < 2^63) :
    sub (word x) (word y) = word (Uint63.sub x y) := by
  apply valLong_eq
  rw [BitVec.toNat_sub, ulongVal_word hx, ulongVal_word hy]
  unfold Uint63.sub ofInt; omega

theorem C01_mul {x y : Nat} (hx : x < 2^63) (hy : y < 2^63) :
    mul (word x) (word y) = word (Uint63.mul x y) := by
  apply valLong_eq
  rw [BitVec.toNat_mul, ulongVal_word hx, ulongVal_word hy]
  unfold Uint63.mul B; omega

example : add (word (2^63 - 1)) (word 5) = word 4 := C01_add (by decide) (by decide)
example : sub (word 3) (word 5) = word (2^63 - 2) := C01_sub (by decide) (by decide)
example : mul (word (2^62)) (word 3) = word (2^62) := C01_mul (by decide) (by decide)

/-! ## C02 -/

theorem C02_div {x y : Nat} (hx : x < 2^63) (hy : y < 2^63) :
    div (word x) (word y) = some (word (Uint63.div x y)) := by
  unfold div
  by_cases h : y = 0
  · simp only [(ulongVal_word_eq_zero hy).2 h, if_true]
    subst h; simp [Uint63.div]; decide
  · have h' : ¬ ulongVal (word y) = 0 := fun e => h ((ulongVal_word_eq_zero hy).1 e)
    simp only [h', if_false, udiv?, Option.map_some, Option.some.injEq]
    apply valLong_eq
    show ((ulongVal (word x)) / (ulongVal (word y))).toNat % _ = _
    rw [BitVec.toNat_udiv, ulongVal_word hx, ulongVal_word hy]
    unfold Uint63.div
    exact Nat.mod_eq_of_lt (lt_of_le_of_lt (Nat.div_le_self x y) hx)

theorem C02_mod {x y : Nat} (hx : x < 2^63) (hy : y < 2^63) :
    mod (word x) (word y) = some (word (Uint63.mod x y)) := by
  unfold mod
  by_cases h : y = 0
  · simp only [(ulongVal_word_eq_zero hy).2 h, if_true]
    subst h; simp [Uint63.mod]
  · have h' : ¬ ulongVal (word y) = 0 := fun e => h ((ulongVal_word_eq_zero hy).1 e)
    simp only [h', if_false, umod?, Option.map_some, Option.some.injEq]
    apply valLong_eq
    show ((ulongVal (word x)) % (ulongVal (word y))).toNat % _ = _
    rw [BitVec.toNat_umod, ulongVal_word hx, ulongVal_word hy]
    unfold Uint63.mod
    have := Nat.mod_le x y
    omega

example : div (word 17) (word 0) = some (word 0) := C02_div (by decide) (by decide)
example : mod (word (2^63 - 1)) (word (2^62)) = some (word (2^62 - 1)) := C02_mod (by decide) (by decide)

/-! ## C03 -/

theorem C03_land {x y : Nat} (hx : x < 2^63) (hy : y < 2^63) :
    land (word x) (word y) = word (Uint63.land x y) := by
  apply valLong_eq
  rw [BitVec.toNat_and, ulongVal_word hx, ulongVal_word hy]
  exact Nat.mod_eq_of_lt (Nat.and_lt_two_pow _ hy)

theorem C03_lor {x y : Nat} (hx : x < 2^63) (hy : y < 2^63) :
    lor (word x) (word y) = word (Uint63.lor x y) := by
  apply valLong_eq
  rw [BitVec.toNat_or, ulongVal_word hx, ulongVal_word hy]
  exact Nat.mod_eq_of_lt (Nat.or_lt_two_pow hx hy)

theorem C03_lxor {x y : Nat} (hx : x < 2^63) (hy : y < 2^63) :
    lxor (word x) (word y) = word (Uint63.lxor x y) := by
  apply valLong_eq
  rw [BitVec.toNat_xor, ulongVal_word hx, ulongVal_word hy]
  exact Nat.mod_eq_of_lt (Nat.xor_lt_two_pow hx hy)

/-- The shift amount `y` is any primitive integer; over-shifting gives 0 (and is not undefined behaviour). -/
theorem C03_lsl {x y : Nat} (hx : x < 2^63) (hy : y < 2^63) :
    lsl (word x) (word y) = some (word (Uint63.lsl x y)) := by
  simp only [lsl, shl?, ulongVal_word hy]
  by_cases h : y < 63
  · rw [if_pos h, if_pos (by omega : y < 64), Option.map_some]
    congr 1
    apply valLong_eq
    rw [BitVec.toNat_shiftLeft, ulongVal_word hx, Nat.shiftLeft_eq]
    unfold Uint63.lsl B
    omega
  · rw [if_neg h]
    congr 1
    apply valLong_eq
    unfold Uint63.lsl B
    have : 2^y = 2^63 * 2^(y-63) := by rw [← pow_add]; congr 1; omega
    rw [this, ← Nat.mul_assoc, Nat.mul_comm x, Nat.mul_assoc, Nat.mul_mod_right]
    rfl

theorem C03_lsr {x y : Nat} (hx : x < 2^63) (hy : y < 2^63) :
    lsr (word x) (word y) = some (word (Uint63.lsr x y)) := by
  simp only [lsr, shr?, ulongVal_word hy]
  by_cases h : y < 63
  · rw [if_pos h, if_pos (by omega : y < 64), Option.map_some]
    congr 1
    apply valLong_eq
    rw [BitVec.toNat_ushiftRight, ulongVal_word hx, Nat.shiftRight_eq_div_pow]
    unfold Uint63.lsr
    exact Nat.mod_eq_of_lt (lt_of_le_of_lt (Nat.div_le_self x (2^y)) hx)
  · rw [if_neg h]
    congr 1
    apply valLong_eq
    unfold Uint63.lsr
    rw [Nat.div_eq_of_lt]
    · rfl
    · calc x < 2^63 := hx
        _ ≤ 2^y := Nat.pow_le_pow_right (by decide) (by omega)

example : lsl (word 3) (word 62) = some (word (2^62)) := C03_lsl (by decide) (by decide)
example : lsr (word (2^62)) (word (2^63 - 1)) = some (word (Uint63.lsr (2^62) (2^63 - 1))) := C03_lsr (by decide) (by decide)
example : lxor (word 12) (word 10) = word 6 := C03_lxor (by decide) (by decide)

/-! ## C04 -/

theorem mkBool_eq (b : Bool) : mkBool b = boolWord b := by cases b <;> rfl

theorem C04_eqb {x y : Nat} (hx : x < 2^63) (hy : y < 2^63) :
    eqb (word x) (word y) = boolWord (decide (x = y)) := by
  unfold eqb; rw [mkBool_eq]; congr 1
  rw [beq_eq_decide]
  congr 1
  rw [← BitVec.toNat_inj, ulongVal_word hx, ulongVal_word hy]

theorem C04_compare {x y : Nat} (hx : x < 2^63) (hy : y < 2^63) :
    compare (word x) (word y) = some (cmpWord (compareInt x y)) := by
  unfold compare
  have hs := ssub_some (x := ulongVal (word x)) (y := ulongVal (word y))
    (by rw [toInt_ulongVal_word hx, toInt_ulongVal_word hy]; omega)
  rw [hs.1, Option.map_some, ofDiff_of, hs.2, toInt_ulongVal_word hx, toInt_ulongVal_word hy]
  congr 2
  unfold compareInt
  by_cases h1 : (x:Int) = y
  · simp [h1]
  · rw [if_neg (by omega), if_neg h1]
    by_cases h2 : (x:Int) < y
    · rw [if_pos (by omega), if_pos h2]
    · rw [if_neg (by omega), if_neg h2]

/-- Full statement of the `ltb` half of C04. It is false, see `C04_ltb_refuted`. -/
def C04_ltb_statement : Prop :=
  ∀ x y, x < 2^63 → y < 2^63 → ltb (word x) (word y) = boolWord (decide (x < y))

/-- Full statement of the `leb` half of C04. It is false, see `C04_leb_refuted`. -/
def C04_leb_statement : Prop :=
  ∀ x y, x < 2^63 → y < 2^63 → leb (word x) (word y) = boolWord (decide (x ≤ y))

/-- The code compares tagged *signed* words: `1 < 2^62` is answered "no". -/
theorem C04_ltb_refuted : ¬ C04_ltb_statement := by
  intro h
  have := h 1 (2^62) (by decide) (by decide)
  revert this; decide

theorem C04_leb_refuted : ¬ C04_leb_statement := by
  intro h
  have := h 1 (2^62) (by decide) (by decide)
  revert this; decide

/-- What the code does compute, for all inputs: the signed order. -/
theorem C04_ltb_is_signed {x y : Nat} (hx : x < 2^63) (hy : y < 2^63) :
    ltb (word x) (word y) = boolWord (decide (toSigned x < toSigned y)) := by
  unfold ltb; rw [mkBool_eq, BitVec.slt, toInt_word hx, toInt_word hy]; congr 2; apply propext; omega

theorem C04_leb_is_signed {x y : Nat} (hx : x < 2^63) (hy : y < 2^63) :
    leb (word x) (word y) = boolWord (decide (toSigned x ≤ toSigned y)) := by
  unfold leb; rw [mkBool_eq, BitVec.sle, toInt_word hx, toInt_word hy]; congr 2; apply propext; omega

/-- Missing for C04: operands on different sides of `2^62`. -/
theorem C04_ltb_partial {x y : Nat} (hx : x < 2^63) (hy : y < 2^63) (hs : x < 2^62 ↔ y < 2^62) :
    ltb (word x) (word y) = boolWord (decide (x < y)) := by
  rw [C04_ltb_is_signed hx hy]; congr 2; apply propext; unfold toSigned
  split <;> split <;> omega

theorem C04_leb_partial {x y : Nat} (hx : x < 2^63) (hy : y < 2^63) (hs : x < 2^62 ↔ y < 2^62) :
    leb (word x) (word y) = boolWord (decide (x ≤ y)) := by
  rw [C04_leb_is_signed hx hy]; congr 2; apply propext; unfold toSigned
  split <;> split <;> omega

/-- The code is wrong for *every* pair of operands on different sides of `2^62`. -/
theorem C04_ltb_wrong_iff {x y : Nat} (hx : x < 2^63) (hy : y < 2^63) :
    ltb (word x) (word y) = boolWord (decide (x < y)) ↔ (x < 2^62 ↔ y < 2^62) := by
  constructor
  · rw [C04_ltb_is_signed hx hy]
    intro h
    by_contra hc
    unfold toSigned at h
    by_cases h1 : x < 2^62 <;> by_cases h2 : y < 2^62
    · exact hc (iff_of_true h1 h2)
    · have e1 : ¬ ((x:Int) < (y:Int) - 2^63) := by omega
      have e2 : x < y := by omega
      simp only [h1, h2, if_true, if_false, e1, e2, decide_true, decide_false] at h
      revert h; decide
    · have e1 : ((x:Int) - 2^63 < (y:Int)) := by omega
      have e2 : ¬ x < y := by omega
      simp only [h1, h2, if_true, if_false, e1, e2, decide_true, decide_false] at h
      revert h; decide
    · exact hc (iff_of_false h1 h2)
  · exact C04_ltb_partial hx hy

example : compare (word 5) (word (2^63 - 1)) = some (word 1) := C04_compare (by decide) (by decide)
example : eqb (word 5) (word 6) = word 0 := C04_eqb (by decide) (by decide)
example : ltb (word (2^62)) (word (2^62 + 1)) = word 1 := C04_ltb_partial (by decide) (by decide) (by decide)

/-! ## C05 -/

theorem C05_ltsb {x y : Nat} (hx : x < 2^63) (hy : y < 2^63) :
    ltsb (word x) (word y) = boolWord (decide (toSigned x < toSigned y)) := by
  unfold ltsb; rw [mkBool_eq, BitVec.slt, longVal_word hx, longVal_word hy]

theorem C05_lesb {x y : Nat} (hx : x < 2^63) (hy : y < 2^63) :
    lesb (word x) (word y) = boolWord (decide (toSigned x ≤ toSigned y)) := by
  unfold lesb; rw [mkBool_eq, BitVec.sle, longVal_word hx, longVal_word hy]

theorem C05_compares {x y : Nat} (hx : x < 2^63) (hy : y < 2^63) :
    compares (word x) (word y) = some (cmpWord (compareInt (toSigned x) (toSigned y))) := by
  unfold compares
  have := toSigned_lt hx; have := toSigned_lt hy
  have := @toSigned_ge x; have := @toSigned_ge y
  have hs := ssub_some (x := longVal (word x)) (y := longVal (word y))
    (by rw [longVal_word hx, longVal_word hy]; omega)
  rw [hs.1, Option.map_some, ofDiff_of, hs.2, longVal_word hx, longVal_word hy]
  congr 2
  unfold compareInt
  by_cases h1 : toSigned x = toSigned y
  · simp [h1]
  · rw [if_neg (by omega), if_neg h1]
    by_cases h2 : toSigned x < toSigned y
    · rw [if_pos (by omega), if_pos h2]
    · rw [if_neg (by omega), if_neg h2]

theorem C05_divs {x y : Nat} (hx : x < 2^63) (hy : y < 2^63) :
    divs (word x) (word y) = some (word (Uint63.divs x y)) := by
  unfold divs
  by_cases h : y = 0
  · simp only [(longVal_word_eq_zero hy).2 h, if_true]
    subst h
    have : Uint63.divs x 0 = 0 := by simp [Uint63.divs, toSigned, ofInt]
    rw [this]; rfl
  · have h' : longVal (word y) ≠ 0 := fun e => h ((longVal_word_eq_zero hy).1 e)
    have hx1 := longVal_word hx
    have hne : ¬ (longVal (word x) = BitVec.intMin 64) := by
      intro e
      rw [e] at hx1
      have h2 := @toSigned_ge x
      rw [← hx1] at h2
      revert h2; decide
    have hcond : ¬ (longVal (word y) = 0 ∨ (longVal (word x) = BitVec.intMin 64 ∧ longVal (word y) = -1)) := by
      rintro (e | e)
      · exact h' e
      · exact hne e.1
    simp only [if_neg h', sdiv?, if_neg hcond, Option.map_some, Option.some.injEq]
    rw [valLong_of_toInt, BitVec.toInt_sdiv, longVal_word hx, longVal_word hy, Uint63.divs]
    congr 1
    have b1 := toSigned_lt hx
    have b2 := @toSigned_ge x
    have b3 : |(toSigned x).tdiv (toSigned y)| ≤ |toSigned x| := by
      rw [Int.abs_eq_natAbs, Int.abs_eq_natAbs, Int.natAbs_tdiv]
      exact_mod_cast Nat.div_le_self _ _
    have b4 : |toSigned x| ≤ 2^62 := abs_le.2 ⟨by omega, by omega⟩
    have b5 := abs_le.1 (le_trans b3 b4)
    rw [Int.bmod_eq_of_le] <;> omega

/-- Full statement of the `mods` part of C05; false, see `C05_mods_refuted`. -/
def C05_mods_statement : Prop :=
  ∀ x y, x < 2^63 → y < 2^63 → mods (word x) (word y) = some (word (Uint63.mods x y))

/-- `-1 rem 2` is computed as `+1`. -/
theorem C05_mods_refuted : ¬ C05_mods_statement := by
  intro h
  have := h (2^63 - 1) 2 (by decide) (by decide)
  revert this; decide

/-- Missing for C05: negative operands. -/
theorem C05_mods_partial {x y : Nat} (hx : x < 2^62) (hy : y < 2^62) :
    mods (word x) (word y) = some (word (Uint63.mods x y)) := by
  have e : mods (word x) (word y) = mod (word x) (word y) := by
    unfold mods mod
    by_cases h : y = 0
    · simp only [(longVal_word_eq_zero (by omega)).2 h, (ulongVal_word_eq_zero (by omega)).2 h, if_true]
    · have h1 : ¬ ulongVal (word y) = 0 := fun e => h ((ulongVal_word_eq_zero (by omega)).1 e)
      have h2 : ¬ longVal (word y) = 0 := fun e => h ((longVal_word_eq_zero (by omega)).1 e)
      simp only [h1, h2, if_false]
  rw [e, C02_mod (by omega) (by omega)]
  congr 2
  simp only [Uint63.mod, Uint63.mods, toSigned, hx, hy, if_true, ofInt]
  rw [← Int.ofNat_tmod]
  have := Nat.mod_le x y
  omega

/-- Full statement of the `asr` part of C05; false, see `C05_asr_refuted`. -/
def C05_asr_statement : Prop :=
  ∀ x p, x < 2^63 → p < 63 → asr (word x) (word p) = some (word (Uint63.asr x p))

/-- `-1 asr 1` loses the sign. -/
theorem C05_asr_refuted : ¬ C05_asr_statement := by
  intro h
  have := h (2^63 - 1) 1 (by decide) (by decide)
  revert this; decide

/-- Missing for C05: negative `x`. -/
theorem C05_asr_partial {x p : Nat} (hx : x < 2^62) (hp : p < 63) :
    asr (word x) (word p) = some (word (Uint63.asr x p)) := by
  simp only [asr, sar?, ulongVal_word (show p < 2^63 by omega)]
  rw [if_pos hp, if_pos (by omega : p < 64), Option.map_some]
  congr 1
  rw [valLong_of_toInt, BitVec.toInt_sshiftRight, toInt_ulongVal_word (by omega), Int.shiftRight_eq_div_pow]
  simp only [Uint63.asr, toSigned, hx, if_true]; rfl

/-- The code's `asr` is the logical shift, for every operand. -/
theorem C05_asr_is_lsr {x p : Nat} (hx : x < 2^63) (hp : p < 2^63) :
    asr (word x) (word p) = lsr (word x) (word p) := by
  simp only [asr, lsr, sar?, shr?, ulongVal_word hp]
  by_cases h : p < 63
  · simp only [h, if_true, (by omega : p < 64), Option.map_some]
    congr 2
    apply BitVec.sshiftRight_eq_of_msb_false
    rw [BitVec.msb_eq_decide, ulongVal_word hx]
    simp; omega
  · simp [h]

example : divs (word (2^63 - 7)) (word 2) = some (word (2^63 - 3)) := C05_divs (by decide) (by decide)
example : divs (word (2^62)) (word (2^63 - 1)) = some (word (2^62)) := C05_divs (by decide) (by decide)
example : compares (word (2^63 - 1)) (word 0) = some (word 1) := C05_compares (by decide) (by decide)
example : mods (word 17) (word 5) = some (word 2) := C05_mods_partial (by decide) (by decide)
example : asr (word 17) (word 2) = some (word 4) := C05_asr_partial (by decide) (by decide)

/-! ## C06 -/

/-- Representation of a carry result. -/
def carryWord : Carry → CarryRes
  | .C0 n => .C0 (word n)
  | .C1 n => .C1 (word n)

/-- Full statements of C06, one per operation. All four are false. -/
def C06_statement (impl : W → W → CarryRes) (spec : Nat → Nat → Carry) : Prop :=
  ∀ x y, x < 2^63 → y < 2^63 → impl (word x) (word y) = carryWord (spec x y)

theorem C06_addc_refuted : ¬ C06_statement addc Uint63.addc := by
  intro h
  have := h (2^63 - 1) 1 (by decide) (by decide)
  revert this; decide

theorem C06_addcarryc_refuted : ¬ C06_statement addcarryc Uint63.addcarryc := by
  intro h
  have := h 5 1 (by decide) (by decide)
  revert this; decide

theorem C06_subc_refuted : ¬ C06_statement subc Uint63.subc := by
  intro h
  have := h (2^62) 1 (by decide) (by decide)
  revert this; decide

theorem C06_subcarryc_refuted : ¬ C06_statement subcarryc Uint63.subcarryc := by
  intro h
  have := h (2^62) 1 (by decide) (by decide)
  revert this; decide

/-- `addc` never reports a carry at all. -/
theorem C06_addc_never_carries {x y : Nat} (hx : x < 2^63) (hy : y < 2^63) :
    addc (word x) (word y) = .C0 (word ((x + y) % 2^63)) := by
  have hn : ¬ (ulongVal (word x) + ulongVal (word y) < ulongVal (word x)) := by
    rw [BitVec.lt_def, BitVec.toNat_add, ulongVal_word hx, ulongVal_word hy]; omega
  simp only [addc, hn, if_false]
  congr 1
  apply valLong_eq
  rw [BitVec.toNat_add, ulongVal_word hx, ulongVal_word hy]; omega

/-- Missing for C06: sums of `2^63` and more. -/
theorem C06_addc_partial {x y : Nat} (hxy : x + y < 2^63) :
    addc (word x) (word y) = carryWord (Uint63.addc x y) := by
  rw [C06_addc_never_carries (by omega) (by omega), Nat.mod_eq_of_lt hxy]
  simp only [Uint63.addc, B, hxy, carryWord, if_true]

/-- Exactly when `addcarryc` is right: its carry test compares `x+y+1` (signed, untagged) with the tagged `x`. -/
theorem C06_addcarryc_partial {x y : Nat} (hx : x < 2^62) (hxy : x < y) (hyb : y < 2^62) :
    addcarryc (word x) (word y) = carryWord (Uint63.addcarryc x y) := by
  have hr : (ulongVal (word x) + ulongVal (word y) + 1).toNat = x + y + 1 := by
    rw [BitVec.toNat_add, BitVec.toNat_add, ulongVal_word (by omega), ulongVal_word (by omega)]
    show (_ + 1) % _ = _
    omega
  have hn : (ulongVal (word x) + ulongVal (word y) + 1).sle (word x) = false := by
    rw [BitVec.sle, decide_eq_false_iff_not, toInt_word (by omega), BitVec.toInt_eq_toNat_cond, hr]
    simp only [toSigned, hx, if_true]
    split <;> push_cast <;> omega
  simp only [addcarryc, hn]
  have h2 : x + y + 1 < 2^63 := by omega
  simp only [Bool.false_eq_true, if_false, Uint63.addcarryc, B, h2, if_true, carryWord]
  congr 1
  apply valLong_eq
  rw [hr]; omega

/-- Missing for C06: operands on different sides of `2^62`. -/
theorem C06_subc_partial {x y : Nat} (hx : x < 2^63) (hy : y < 2^63) (hs : x < 2^62 ↔ y < 2^62) :
    subc (word x) (word y) = carryWord (Uint63.subc x y) := by
  have hr : (ulongVal (word x) - ulongVal (word y)).toNat = (2^64 - y + x) % 2^64 := by
    rw [BitVec.toNat_sub, ulongVal_word hx, ulongVal_word hy]
  have hc : (word y).sle (word x) = decide (y ≤ x) := by
    rw [BitVec.sle, toInt_word hx, toInt_word hy]
    congr 1; apply propext; unfold toSigned
    split <;> split <;> omega
  simp only [subc, hc, Uint63.subc]
  by_cases h : y ≤ x
  · simp only [h, decide_true, if_true, carryWord]
    congr 1; apply valLong_eq; rw [hr]; omega
  · simp only [h, decide_false, if_false, carryWord, Bool.false_eq_true]
    congr 1; apply valLong_eq; rw [hr]; unfold B; omega

theorem C06_subcarryc_partial {x y : Nat} (hx : x < 2^63) (hy : y < 2^63) (hs : x < 2^62 ↔ y < 2^62) :
    subcarryc (word x) (word y) = carryWord (Uint63.subcarryc x y) := by
  have hr : (ulongVal (word x) - ulongVal (word y) - 1).toNat = (2^64 - 1 + (2^64 - y + x) % 2^64) % 2^64 := by
    rw [BitVec.toNat_sub, BitVec.toNat_sub, ulongVal_word hx, ulongVal_word hy]; rfl
  have hc : (word y).slt (word x) = decide (y < x) := by
    rw [BitVec.slt, toInt_word hx, toInt_word hy]
    congr 1; apply propext; unfold toSigned
    split <;> split <;> omega
  simp only [subcarryc, hc, Uint63.subcarryc]
  by_cases h : y < x
  · simp only [h, decide_true, if_true, carryWord, (by omega : y + 1 ≤ x)]
    congr 1; apply valLong_eq; rw [hr]; omega
  · have h' : ¬ y + 1 ≤ x := by omega
    simp only [h, decide_false, if_false, carryWord, Bool.false_eq_true, if_neg h']
    congr 1; apply valLong_eq; rw [hr]; unfold B; omega

example : addc (word 7) (word 8) = .C0 (word 15) := C06_addc_partial (by decide)
example : subc (word 7) (word 8) = .C1 (word (2^63 - 1)) := C06_subc_partial (by decide) (by decide) (by decide)
example : subcarryc (word 7) (word 7) = .C1 (word (2^63 - 1)) :=
  C06_subcarryc_partial (by decide) (by decide) (by decide)
example : addcarryc (word 3) (word 8) = .C0 (word 12) := C06_addcarryc_partial (by decide) (by decide) (by decide)

/-! ## C10 -/

theorem C10_untag_unsigned {n : Nat} (h : n < 2^63) : (ulongVal (word n)).toNat = n := ulongVal_word h

theorem C10_untag_signed {n : Nat} (h : n < 2^63) : (longVal (word n)).toInt = toSigned n := longVal_word h

/-- Tagging any word keeps exactly its low 63 bits. -/
theorem C10_tag (x : W) : valLong x = word (x.toNat % 2^63) := valLong_eq_word x

theorem C10_word_injective {m n : Nat} (hm : m < 2^63) (hn : n < 2^63) (h : word m = word n) : m = n := by
  have := congrArg BitVec.toNat h
  rw [toNat_word hm, toNat_word hn] at this; omega

theorem isLong_iff (x : W) : isLong x = true ↔ x.toNat % 2 = 1 := by
  unfold isLong
  rw [bne_iff_ne, Ne, ← BitVec.toNat_inj, BitVec.toNat_and]
  show ¬ (x.toNat &&& 1 = 0) ↔ _
  rw [Nat.and_one_is_mod]; omega

theorem isBlock_iff (x : W) : isBlock x = true ↔ x.toNat % 2 = 0 := by
  unfold isBlock
  rw [beq_iff_eq, ← BitVec.toNat_inj, BitVec.toNat_and]
  show (x.toNat &&& 1 = 0) ↔ _
  rw [Nat.and_one_is_mod]

/-- A tagged integer is recognised as an integer and never as a block. -/
theorem C10_tagged_is_long (n : Nat) : isLong (word n) = true ∧ isBlock (word n) = false := by
  have h : (word n).toNat % 2 = 1 := by unfold word; rw [BitVec.toNat_ofNat]; omega
  refine ⟨(isLong_iff _).2 h, ?_⟩
  rw [Bool.eq_false_iff, Ne, isBlock_iff]; omega

/-- A word-aligned address is recognised as a block and never as an integer; in particular it is no tagged integer. -/
theorem C10_pointer_is_block (p : W) (hal : 8 ∣ p.toNat) :
    isBlock p = true ∧ isLong p = false ∧ ∀ n, p ≠ word n := by
  have h : p.toNat % 2 = 0 := by omega
  refine ⟨(isBlock_iff _).2 h, ?_, ?_⟩
  · rw [Bool.eq_false_iff, Ne, isLong_iff]; omega
  · rintro n rfl
    have := (C10_tagged_is_long n).2
    rw [Bool.eq_false_iff, Ne, isBlock_iff] at this
    exact this h

/-- Every odd word is the tag of exactly one primitive integer, so tagging is a bijection onto the odd words. -/
theorem C10_word_surjective (w : W) (h : isLong w = true) : ∃ n, n < 2^63 ∧ word n = w := by
  refine ⟨w.toNat / 2, by omega, ?_⟩
  apply BitVec.eq_of_toNat_eq
  rw [toNat_word (by omega)]
  have := (isLong_iff w).1 h
  omega

example : isBlock (0x7f0000001000 : W) = true := (C10_pointer_is_block _ (by decide)).1
example : (longVal (word (2^63 - 5))).toInt = -5 := C10_untag_signed (by decide)

end Int63
