import Verif.Runtime.FloatLemmas

/-!
# C20: float primitives of the C runtime
-/

namespace CFloat
open F64

theorem notNan {x : Bits} (hx : val x ≠ .nan) : low x ≤ infN := by
  by_contra h
  exact hx ((val_nan x).2 (by omega))

theorem nat0 : (0 : Bits).toNat = 0 := rfl
theorem nat1 : (1 : Bits).toNat = 1 := rfl

/-- `next_up` of a double that is neither NaN nor `+∞` is the least double above it. -/
theorem C20_next_up {x : Bits} (hx : val x ≠ .nan) (hi : val x ≠ .inf false) :
    (val x).lt (val (nextUp x)) ∧ ∀ y, (val x).lt (val y) → (val (nextUp x)).le (val y) := by
  have hl := notNan hx
  have hinf : low infty = infN ∧ key infty = infN := by decide
  have hi' : low x = infN → negative x = true := fun h => by
    rw [val_inf x h] at hi
    cases hh : negative x
    · exact absurd (by rw [hh]) hi
    · rfl
  have hlt : (val x).lt (val infty) := by
    rw [lt_key, hinf.1, hinf.2]
    refine ⟨hl, le_refl _, ?_⟩
    rcases key_nat x with h | h
    · have : (0:Int) < infN := by norm_num [infN]
      omega
    · have : low x ≠ infN := fun h' => by have := hi' h'; rw [h.1] at this; cases this
      omega
  have hN : infN = 9218868437227405312 := by norm_num [infN]
  have h63 : (2:Nat)^63 = 9223372036854775808 := by norm_num
  have h64 : (2:Nat)^64 = 18446744073709551616 := by norm_num
  unfold nextUp
  rw [if_neg (not_not.2 hlt)]
  rcases key_nat x with ⟨a, b, c, d⟩ | ⟨a, b, c, d⟩
  · rw [if_neg (by rw [a]; simp)]
    by_cases hz : x + x = 0
    · rw [if_pos hz]
      have hx0 : low x = 0 := by
        have h2 := congrArg BitVec.toNat hz
        rw [BitVec.toNat_add] at h2
        have := x.isLt
        rw [nat0] at h2
        omega
      have h1 : low 1 = 1 ∧ key 1 = 1 := by decide
      refine ⟨?_, fun y hy => ?_⟩
      · rw [lt_key, h1.1, h1.2]; omega
      · rw [lt_key] at hy; rw [le_key, h1.1, h1.2]; omega
    · rw [if_neg hz]
      have hx1 : (x - 1).toNat = x.toNat - 1 := by
        have := x.isLt
        rw [BitVec.toNat_sub, nat1]
        omega
      have hx0 : low x ≠ 0 := fun h0 => hz (by
        apply BitVec.eq_of_toNat_eq
        rw [BitVec.toNat_add, nat0]
        have := x.isLt
        omega)
      have k1 := key_nat (x - 1)
      refine ⟨?_, fun y hy => ?_⟩
      · rw [lt_key]; omega
      · rw [lt_key] at hy; rw [le_key]; omega
  · rw [if_pos (by rw [a]; simp)]
    have hxi : low x ≠ infN := fun h' => by have := hi' h'; rw [a] at this; cases this
    have hx1 : (x + 1).toNat = x.toNat + 1 := by
      rw [BitVec.toNat_add, nat1]
      omega
    have k1 := key_nat (x + 1)
    refine ⟨?_, fun y hy => ?_⟩
    · rw [lt_key]; omega
    · rw [lt_key] at hy; rw [le_key]; omega

/-- `next_up` leaves NaN and `+∞` unchanged, as Rocq's `next_up` does. -/
theorem C20_next_up_top {x : Bits} (hx : val x = .nan ∨ val x = .inf false) : nextUp x = x := by
  unfold nextUp
  rw [if_pos]
  rcases hx with h | h
  · rw [h]; simp [FVal.lt]
  · rw [h, show val infty = .inf false by decide]; simp [FVal.lt]

theorem C20_next_down {x : Bits} (hx : val x ≠ .nan) (hi : val x ≠ .inf true) :
    (val (nextDown x)).lt (val x) ∧ ∀ y, (val y).lt (val x) → (val y).le (val (nextDown x)) := by
  have hl := notNan hx
  have hinf : low ninfty = infN ∧ key ninfty = -infN := by decide
  have hi' : low x = infN → negative x = false := fun h => by
    rw [val_inf x h] at hi
    cases hh : negative x
    · rfl
    · exact absurd (by rw [hh]) hi
  have hlt : (val ninfty).lt (val x) := by
    rw [lt_key, hinf.1, hinf.2]
    refine ⟨le_refl _, hl, ?_⟩
    rcases key_nat x with h | h
    · have : low x ≠ infN := fun h' => by have := hi' h'; rw [h.1] at this; cases this
      omega
    · have : (0:Int) < infN := by norm_num [infN]
      omega
  have hN : infN = 9218868437227405312 := by norm_num [infN]
  have h63 : (2:Nat)^63 = 9223372036854775808 := by norm_num
  have h64 : (2:Nat)^64 = 18446744073709551616 := by norm_num
  unfold nextDown
  rw [if_neg (not_not.2 hlt)]
  by_cases h0 : x = 0
  · subst h0
    rw [if_pos rfl]
    have h1 : low 0x8000000000000001 = 1 ∧ key 0x8000000000000001 = -1 ∧ low 0 = 0 ∧ key 0 = 0 := by decide
    refine ⟨?_, fun y hy => ?_⟩
    · rw [lt_key]; omega
    · rw [lt_key] at hy; rw [le_key]; omega
  · rw [if_neg h0]
    have hne : x.toNat ≠ 0 := fun h => h0 (BitVec.eq_of_toNat_eq (by simpa using h))
    rcases key_nat x with ⟨a, b, c, d⟩ | ⟨a, b, c, d⟩
    · rw [if_pos (by rw [a])]
      have hxi : low x ≠ infN := fun h' => by have := hi' h'; rw [a] at this; cases this
      have hx1 : (x + 1).toNat = x.toNat + 1 := by
        rw [BitVec.toNat_add, nat1]
        have := x.isLt
        omega
      have k1 := key_nat (x + 1)
      refine ⟨?_, fun y hy => ?_⟩
      · rw [lt_key]; omega
      · rw [lt_key] at hy; rw [le_key]; omega
    · rw [if_neg (by rw [a]; simp)]
      have hx1 : (x - 1).toNat = x.toNat - 1 := by
        have := x.isLt
        rw [BitVec.toNat_sub, nat1]
        omega
      have k1 := key_nat (x - 1)
      refine ⟨?_, fun y hy => ?_⟩
      · rw [lt_key]; omega
      · rw [lt_key] at hy; rw [le_key]; omega

theorem C20_next_down_bottom {x : Bits} (hx : val x = .nan ∨ val x = .inf true) : nextDown x = x := by
  unfold nextDown
  rw [if_pos]
  rcases hx with h | h
  · rw [h, show val ninfty = .inf true by decide]; simp [FVal.lt]
  · rw [h, show val ninfty = .inf true by decide]; simp [FVal.lt]

-- the largest finite double: its successor is infinity
example : nextUp 0x7FEFFFFFFFFFFFFF = infty ∧
    (val 0x7FEFFFFFFFFFFFFF).lt (val (nextUp 0x7FEFFFFFFFFFFFFF)) :=
  ⟨by decide, (C20_next_up (by decide) (by decide)).1⟩
-- from -0.0 to the least positive subnormal
example : (val 0x8000000000000000).lt (val (nextUp 0x8000000000000000)) :=
  (C20_next_up (by decide) (by decide)).1

/-! ## Classification -/

theorem C20_classify (x : Bits) : classify x = 2 * (fclassify x).ord + 1 := by
  have hlow := low_lt x
  unfold classify fpclassify fclassify
  rw [expo_low, mant_low]
  rcases lt_trichotomy (low x) infN with h | h | h
  · rw [val_fin x h]
    rw [if_neg (by unfold infN at h; omega)]
    by_cases he : low x / 2^52 = 0
    · rw [if_pos he]
      by_cases hm : low x % 2^52 = 0
      · rw [if_pos hm]
        have : low x = 0 := by omega
        rw [this, magN_zero]
        cases negative x <;> simp [FClass.ord]
      · rw [if_neg hm]
        have hv : magN (low x) = low x := by unfold magN; rw [if_pos he]; omega
        rw [hv]
        have h0 : low x ≠ 0 := by omega
        have h1 : ¬ (2:Int)^52 ≤ |(low x : Int)| := by
          rw [abs_of_nonneg (by omega)]; omega
        cases negative x <;> simp only [Bool.false_eq_true, if_false, if_true, abs_neg]
        · rw [if_neg (by omega), if_neg h1, if_neg (by omega)]; rfl
        · rw [if_neg (by omega), if_neg h1, if_pos (by omega)]; rfl
    · rw [if_neg he]
      have hge : 2^52 ≤ magN (low x) := by
        have : magN (2^52) ≤ magN (low x) := magN_strictMono.monotone (by omega)
        have h2 : magN (2^52) = 2^52 := by decide
        omega
      generalize magN (low x) = g at hge
      have h1 : (2:Int)^52 ≤ |(g : Int)| := by
        rw [abs_of_nonneg (by omega)]; omega
      cases negative x <;> simp only [Bool.false_eq_true, if_false, if_true, abs_neg]
      · rw [if_neg (by omega), if_pos h1, if_neg (by omega)]; rfl
      · rw [if_neg (by omega), if_pos h1, if_pos (by omega)]; rfl
  · rw [val_inf x h, if_pos (by unfold infN at h; omega), if_pos (by unfold infN at h; omega)]
    cases negative x <;> simp [FClass.ord]
  · rw [(val_nan x).2 h, if_pos (by unfold infN at h; omega), if_neg (by unfold infN at h; omega)]
    simp [FClass.ord]

example : classify 0x8000000000000001 = 7 ∧ fclassify 0x8000000000000001 = .nSubn :=
  ⟨by decide, by decide⟩

/-! ## Comparisons -/

theorem C20_ltb (x y : Bits) : ltb x y = 2 * (if fcompare (val x) (val y) = .flt then 1 else 0) + 1 := by
  unfold ltb mkBool fcompare
  by_cases h : (val x).lt (val y)
  · simp [h]
  · simp only [h, decide_false, Bool.false_eq_true, if_false]
    split_ifs <;> simp_all

theorem not_lt_lt (x y : Bits) (h : (val x).lt (val y)) : ¬ (val y).lt (val x) := by
  rw [lt_key] at *; omega
theorem not_lt_eqv (x y : Bits) (h : (val x).lt (val y)) : ¬ (val x).eqv (val y) := by
  rw [lt_key] at h; rw [eqv_key]; omega

theorem C20_eqb (x y : Bits) : eqb x y = 2 * (if fcompare (val x) (val y) = .feq then 1 else 0) + 1 := by
  unfold eqb mkBool fcompare
  by_cases h : (val x).eqv (val y)
  · have h1 : ¬ (val x).lt (val y) := fun h' => not_lt_eqv _ _ h' h
    have h2 : ¬ (val y).lt (val x) := fun h' => by rw [lt_key] at h'; rw [eqv_key] at h; omega
    simp [h, h1, h2]
  · simp only [h, decide_false, Bool.false_eq_true, if_false]
    split_ifs <;> simp_all

theorem C20_leb (x y : Bits) :
    leb x y = 2 * (if fcompare (val x) (val y) = .flt ∨ fcompare (val x) (val y) = .feq then 1 else 0) + 1 := by
  unfold leb mkBool fcompare FVal.le
  by_cases h : (val x).lt (val y)
  · simp [h]
  · by_cases h' : (val x).eqv (val y)
    · have h2 : ¬ (val y).lt (val x) := fun h2 => by rw [lt_key] at h2; rw [eqv_key] at h'; omega
      simp [h, h', h2]
    · simp only [h, h', or_self, decide_false, Bool.false_eq_true, if_false]
      split_ifs <;> simp_all

/-- `prim_float_equal` decides Leibniz equality of Rocq floats. -/
theorem C20_equal (x y : Bits) : equal x y = 3 ↔ sameFloat x y := by
  unfold equal sameFloat
  have hx := key_nat x
  have hy := key_nat y
  have e1 : ∀ b : Bool, mkBool b = 3 ↔ b = true := by decide
  have hN : (0:Nat) < infN := by norm_num [infN]
  have hval : val x = val y ∧ negative x = negative y → val x ≠ .nan → (val x).eqv (val y) := by
    rintro ⟨a, -⟩ b
    rw [a] at b ⊢
    cases hv : val y
    · exact absurd hv b
    · simp [FVal.eqv]
    · simp [FVal.eqv]
  have hback : (val x).eqv (val y) → val x = val y := by
    intro h
    cases hv : val x <;> cases hw : val y <;> rw [hv, hw] at h <;> simp_all [FVal.eqv]
  have hfp : fpclassify x = .nan ↔ val x = .nan := by
    unfold fpclassify val; split_ifs <;> simp
  have hfpy : fpclassify y = .nan ↔ val y = .nan := by
    unfold fpclassify val; split_ifs <;> simp
  have hz : fpclassify x = .zero ↔ low x = 0 := by
    unfold fpclassify; rw [expo_low, mant_low]
    have := low_lt x
    split_ifs <;> simp <;> omega
  cases hc : fpclassify x with
  | nan =>
    simp only [e1, isnan, decide_eq_true_eq, hfpy]
    have := hfp.1 hc
    simp [this]
  | zero =>
    simp only [e1, Bool.and_eq_true, decide_eq_true_eq]
    have hr : (recipZero x).eqv (recipZero y) ↔ negative x = negative y := by simp [FVal.eqv, recipZero]
    rw [hr]
    have hn : val x ≠ .nan := fun h => by rw [hfp.2 h] at hc; cases hc
    exact ⟨fun h => .inr ⟨hn, hback h.1, h.2⟩, fun h => by
      rcases h with h | h
      · exact absurd h.1 hn
      · exact ⟨hval h.2 hn, h.2.2⟩⟩
  | normal | subnormal | infinite =>
    have hn : val x ≠ .nan := fun h => by rw [hfp.2 h] at hc; cases hc
    have h0 : low x ≠ 0 := fun h => by rw [hz.2 h] at hc; cases hc
    simp only [e1, decide_eq_true_eq]
    refine ⟨fun h => .inr ⟨hn, hback h, ?_⟩, fun h => ?_⟩
    · rw [eqv_key] at h
      rcases hx with a | a <;> rcases hy with b | b <;> rw [a.1, b.1] <;> omega
    · rcases h with h | h
      · exact absurd h.1 hn
      · exact hval h.2 hn

example : equal 0 0x8000000000000000 = 1 ∧ eqb 0 0x8000000000000000 = 3 := by decide

/-- `compare` does not implement the IEEE comparison: `1.0` stored at address 16 and `2.0` stored at address 8 are
reported as `FGt`, and two NaNs as comparable. -/
theorem C20_compare_refuted :
    (∃ (mem : Nat → Bits) (x y : Nat), fcompare (val (mem x)) (val (mem y)) = .flt ∧ compare mem x y = FGt) ∧
    (∃ (mem : Nat → Bits) (x y : Nat), fcompare (val (mem x)) (val (mem y)) = .notComparable ∧
      compare mem x y = FEq) := by
  refine ⟨⟨fun a => if a = 16 then 0x3FF0000000000000 else 0x4000000000000000, 16, 8, by decide +kernel, by decide⟩, ?_⟩
  exact ⟨fun _ => 0x7FF8000000000000, 16, 16, by decide, by decide⟩

/-- The answer of `compare` never depends on the doubles compared, and is never `FNotComparable`. -/
theorem C20_compare_ignores_values (m m' : Nat → Bits) (x y : Nat) :
    compare m x y = compare m' x y ∧ compare m x y ≠ FNotComparable := by
  refine ⟨rfl, ?_⟩
  unfold compare
  rcases lt_trichotomy x y with h | h | h
  · simp [h, FLt, FNotComparable]
  · simp [h, FEq, FNotComparable]
  · simp [h, not_lt.2 (le_of_lt h), FGt, FNotComparable]

/-- What does hold: a pointer compared with itself, when it does not hold a NaN. -/
theorem C20_compare_partial (mem : Nat → Bits) (x : Nat) (h : val (mem x) ≠ .nan) :
    fcompare (val (mem x)) (val (mem x)) = .feq ∧ compare mem x x = FEq := by
  refine ⟨?_, by simp [compare]⟩
  unfold fcompare
  have h1 : ¬ (val (mem x)).lt (val (mem x)) := by rw [lt_key]; omega
  have h2 : (val (mem x)).eqv (val (mem x)) := by rw [eqv_key]; have := notNan h; omega
  simp [h1, h2]

/-! ## Sign manipulation -/

theorem C20_abs (x : Bits) : negative (abs x) = false ∧ low (abs x) = low x := by
  have h : (abs x).toNat = x.toNat % 2^63 := by
    unfold abs; rw [BitVec.toNat_ofNat]; omega
  unfold negative low
  rw [h]
  refine ⟨by simp; omega, by omega⟩

/-- Value-level reading: the absolute value of a finite double is the absolute value of its number. -/
theorem C20_abs_value {x : Bits} {z : Int} (h : val x = .fin z) : val (abs x) = .fin |z| := by
  obtain ⟨h1, h2⟩ := C20_abs x
  have hl : low x < infN := by
    rcases lt_trichotomy (low x) infN with h' | h' | h'
    · exact h'
    · rw [val_inf x h'] at h; cases h
    · rw [(val_nan x).2 h'] at h; cases h
  rw [val_fin x hl] at h
  rw [val_fin _ (by omega), h1, h2]
  injection h with h
  subst h
  cases negative x <;> simp

/-! ## Mantissa and exponent -/

/-- Bits with biased exponent 1022 denote a number in `[0.5,1)`. -/
theorem frac_val (s : Bool) (q : Nat) (hq : q < 2^52) :
    val (BitVec.ofNat 64 ((if s then 2^63 else 0) + 1022 * 2^52 + q)) =
      .fin (if s then -(((2^52 + q) * 2^1021 : Nat) : Int) else ((2^52 + q) * 2^1021 : Nat)) ∧
    2^1073 ≤ |(if s then -(((2^52 + q) * 2^1021 : Nat) : Int) else ((2^52 + q) * 2^1021 : Nat))| ∧
    |(if s then -(((2^52 + q) * 2^1021 : Nat) : Int) else ((2^52 + q) * 2^1021 : Nat))| < 2^1074 := by
  have hlow : low (BitVec.ofNat 64 ((if s then 2^63 else 0) + 1022 * 2^52 + q)) = 1022 * 2^52 + q := by
    unfold low; rw [BitVec.toNat_ofNat]; cases s <;> simp only [Bool.false_eq_true, if_true, if_false] <;> omega
  have hneg : negative (BitVec.ofNat 64 ((if s then 2^63 else 0) + 1022 * 2^52 + q)) = s := by
    unfold negative; rw [BitVec.toNat_ofNat]
    cases s <;> simp only [Bool.false_eq_true, if_true, if_false, decide_eq_true_eq, decide_eq_false_iff_not] <;> omega
  have hmag : magN (1022 * 2^52 + q) = (2^52 + q) * 2^1021 := by
    unfold magN
    have e1 : (1022 * 2^52 + q) / 2^52 = 1022 := by omega
    have e2 : (1022 * 2^52 + q) % 2^52 = q := by omega
    rw [e1, e2, if_neg (by norm_num)]
  have habs : |(if s then -(((2^52 + q) * 2^1021 : Nat) : Int) else ((2^52 + q) * 2^1021 : Nat))| =
      (((2^52 + q) * 2^1021 : Nat) : Int) := by
    cases s <;> simp only [Bool.false_eq_true, if_true, if_false, abs_neg] <;> exact abs_of_nonneg (Int.natCast_nonneg _)
  refine ⟨?_, ?_, ?_⟩
  · rw [val_fin _ (by rw [hlow]; unfold infN; omega), hlow, hneg, hmag]
  · rw [habs]
    have : 2^1073 ≤ (2^52 + q) * 2^1021 := by
      rw [show (2:Nat)^1073 = 2^52 * 2^1021 by rw [← pow_add]]
      exact Nat.mul_le_mul_right _ (Nat.le_add_right _ _)
    exact_mod_cast this
  · rw [habs]
    have : (2^52 + q) * 2^1021 < 2^1074 := by
      rw [show (2:Nat)^1074 = 2^53 * 2^1021 by rw [← pow_add]]
      exact Nat.mul_lt_mul_of_pos_right (by omega) (Nat.pow_pos (by norm_num))
    exact_mod_cast this

theorem sgn_mul (s : Bool) (a b c d : Nat) (h : a * c = b * d) :
    (if s then -(a : Int) else a) * (c : Int) = (if s then -(b : Int) else b) * (d : Int) := by
  have h' : (a : Int) * c = b * d := by exact_mod_cast h
  cases s <;> simp only [Bool.false_eq_true, if_true, if_false, neg_mul, h']

/-- `frshiftexp` of a finite non-zero double: the fraction lies in `[0.5, 1)`, keeps the sign, and fraction times
`2^(e - 2101)` is the argument, exactly (stated on multiples of `2^-1074`, both sides multiplied by `2^1100`). -/
theorem C20_frshiftexp {x : Bits} {z : Int} (h : val x = .fin z) (hz : z ≠ 0) :
    ∃ f : Int, val (frshiftexp x).1 = .fin f ∧ 2^1073 ≤ |f| ∧ |f| < 2^1074 ∧
      0 ≤ (frshiftexp x).2 - 2101 + 1100 ∧
      f * 2^((frshiftexp x).2 - 2101 + 1100).toNat = z * 2^1100 := by
  have hl : low x < infN := by
    rcases lt_trichotomy (low x) infN with h' | h' | h'
    · exact h'
    · rw [val_inf x h'] at h; cases h
    · rw [(val_nan x).2 h'] at h; cases h
  rw [val_fin x hl] at h
  injection h with h
  subst h
  have hn0 : low x ≠ 0 := fun h0 => hz (by rw [h0, magN_zero]; simp)
  have hne : expo x ≠ 2047 := by rw [expo_low]; unfold infN at hl; omega
  have hexpo : expo x < 2047 := by rw [expo_low]; unfold infN at hl; omega
  have hm := low_lt x
  have hmant : mant x < 2^52 := Nat.mod_lt _ (by norm_num)
  by_cases he : expo x = 0
  · -- subnormal
    have hm0 : mant x ≠ 0 := by rw [mant_low]; rw [expo_low] at he; omega
    have hc : fpclassify x = .subnormal := by unfold fpclassify; rw [if_neg hne, if_pos he, if_neg hm0]
    have hlog1 := Nat.pow_log_le_self 2 hm0
    have hlog2 := Nat.lt_pow_succ_log_self (b := 2) (by norm_num) (mant x)
    have hL : Nat.log 2 (mant x) < 52 := Nat.log_lt_of_lt_pow hm0 hmant
    generalize hLd : Nat.log 2 (mant x) = L at hlog1 hlog2 hL
    have hk1 : 2^52 ≤ mant x * 2^(52 - L) := by
      calc 2^52 = 2^L * 2^(52-L) := by rw [← pow_add]; congr 1; omega
        _ ≤ _ := Nat.mul_le_mul_right _ hlog1
    have hk2 : mant x * 2^(52 - L) < 2^53 := by
      calc mant x * 2^(52 - L) < 2^(L+1) * 2^(52-L) :=
            Nat.mul_lt_mul_of_pos_right hlog2 (Nat.pow_pos (by norm_num))
        _ = 2^53 := by rw [← pow_add]; congr 1; omega
    have hfr : frshiftexp x = (BitVec.ofNat 64 ((if negative x then 2^63 else 0) + 1022 * 2^52 +
        (mant x * 2^(52 - L) - 2^52)), -1021 - ((52 - L : Nat) : Int) + 2101) := by
      unfold frshiftexp; rw [hc]; simp only [frexp, he, if_true, hLd, eshift]; rfl
    obtain ⟨q, hq⟩ : ∃ q, mant x * 2^(52 - L) = 2^52 + q := ⟨_, (Nat.add_sub_cancel' hk1).symm⟩
    have hq2 : q < 2^52 := by omega
    rw [hq, Nat.add_sub_cancel_left] at hfr
    obtain ⟨hv, hb1, hb2⟩ := frac_val (negative x) q hq2
    have hmag : magN (low x) = mant x := by
      unfold magN; rw [← expo_low, ← mant_low, if_pos he]
    refine ⟨_, by rw [hfr]; exact hv, hb1, hb2, ?_, ?_⟩
    · rw [hfr]; show 0 ≤ -1021 - ((52 - L : Nat) : Int) + 2101 - 2101 + 1100; omega
    · rw [hfr, hmag]
      have e1 : (-1021 - ((52 - L : Nat) : Int) + 2101 - 2101 + 1100).toNat = 27 + L := by omega
      have e3 : mant x * 2^(52-L) * 2^1021 * 2^(27+L) = mant x * 2^1100 := by
        rw [Nat.mul_assoc, Nat.mul_assoc, ← pow_add, ← pow_add]
        exact congrArg (fun t => mant x * 2^t) (by omega)
      have e2 : ((2^52 + q) * 2^1021 : Nat) * 2^(27 + L) = mant x * 2^1100 := by rw [← hq, e3]
      show (if negative x then -(((2^52 + q) * 2^1021 : Nat) : Int) else ((2^52 + q) * 2^1021 : Nat)) *
        2^(-1021 - ((52 - L : Nat) : Int) + 2101 - 2101 + 1100).toNat = _
      rw [e1]
      exact_mod_cast sgn_mul (negative x) _ _ _ _ e2
  · have hc : fpclassify x = .normal := by unfold fpclassify; rw [if_neg hne, if_neg he]
    have hfr : frshiftexp x = (BitVec.ofNat 64 ((if negative x then 2^63 else 0) + 1022 * 2^52 + mant x),
        (expo x : Int) - 1022 + 2101) := by
      unfold frshiftexp; rw [hc]; simp only [frexp, he, if_false, eshift]; rfl
    obtain ⟨hv, hb1, hb2⟩ := frac_val (negative x) (mant x) hmant
    have hmag : magN (low x) = (2^52 + mant x) * 2^(expo x - 1) := by
      unfold magN; rw [← expo_low, ← mant_low, if_neg he]
    refine ⟨_, by rw [hfr]; exact hv, hb1, hb2, ?_, ?_⟩
    · rw [hfr]; show 0 ≤ (expo x : Int) - 1022 + 2101 - 2101 + 1100; omega
    · rw [hfr, hmag]
      have e1 : ((expo x : Int) - 1022 + 2101 - 2101 + 1100).toNat = expo x + 78 := by omega
      have e2 : ((2^52 + mant x) * 2^1021 : Nat) * 2^(expo x + 78) =
          ((2^52 + mant x) * 2^(expo x - 1)) * 2^1100 := by
        rw [Nat.mul_assoc, Nat.mul_assoc, ← pow_add, ← pow_add]
        exact congrArg (fun t => (2^52 + mant x) * 2^t) (by omega)
      show (if negative x then -(((2^52 + mant x) * 2^1021 : Nat) : Int) else ((2^52 + mant x) * 2^1021 : Nat)) *
        2^((expo x : Int) - 1022 + 2101 - 2101 + 1100).toNat = _
      rw [e1]
      exact_mod_cast sgn_mul (negative x) _ _ _ _ e2

-- the least subnormal `2^-1074 = 0.5 * 2^-1073`
example : (frshiftexp 1) = (0x3FE0000000000000, -1073 + 2101) := by decide +kernel
example : ∃ f : Int, val (frshiftexp 1).1 = .fin f ∧ 2^1073 ≤ |f| :=
  let ⟨f, h, h', _⟩ := C20_frshiftexp (x := 1) (z := 1) (by decide) (by decide)
  ⟨f, h, h'⟩

/-- Zeros, infinities and NaNs are returned unchanged with exponent 0, as `PrimFloat.frshiftexp` specifies. -/
theorem C20_frshiftexp_special {x : Bits} (h : ∀ z, val x = .fin z → z = 0) : frshiftexp x = (x, 0) := by
  have hc : fpclassify x = .nan ∨ fpclassify x = .infinite ∨ fpclassify x = .zero := by
    unfold val at h
    unfold fpclassify
    split_ifs with h1 h2 h3 h4 <;> simp
    · exfalso
      rw [if_neg h1] at h
      have := h _ rfl
      unfold magnitude at this
      rw [if_pos h3] at this
      cases hn : negative x <;> simp [hn] at this <;> omega
    · exfalso
      rw [if_neg h1] at h
      have := h _ rfl
      unfold magnitude at this
      rw [if_neg h3] at this
      cases hn : negative x <;> simp [hn] at this <;> omega
  unfold frshiftexp
  rcases hc with h | h | h <;> rw [h]

/-- `normfr_mantissa` of a double `f` with `0.5 ≤ |f| < 1` is the integer `m` with `|f| = m * 2^-53`, exactly. -/
theorem C20_normfr_mantissa {x : Bits} {z : Int} (h : val x = .fin z) (h1 : 2^1073 ≤ |z|) (h2 : |z| < 2^1074) :
    (normfrMantissa x : Int) * 2^1021 = |z| ∧ 2^52 ≤ normfrMantissa x ∧ normfrMantissa x < 2^53 := by
  have ha := C20_abs_value h
  have hl : low x < infN := by
    rcases lt_trichotomy (low x) infN with h' | h' | h'
    · exact h'
    · rw [val_inf x h'] at h; cases h
    · rw [(val_nan x).2 h'] at h; cases h
  have hv := val_fin x hl
  rw [h] at hv
  injection hv with hv
  have hz : |z| = (magN (low x) : Int) := by rw [hv]; cases negative x <;> simp
  unfold normfrMantissa
  rw [show BitVec.ofNat 64 (x.toNat % 2^63) = abs x from rfl, ha]
  show (((if 2^1073 ≤ |z| ∧ |z| < 2^1074 then (|z| * 2^53 / 2^1074).toNat else 0 : Nat) : Int)) * 2^1021 = |z| ∧ _
  rw [if_pos ⟨h1, h2⟩]
  show _ ∧ 2^52 ≤ (if 2^1073 ≤ |z| ∧ |z| < 2^1074 then (|z| * 2^53 / 2^1074).toNat else 0 : Nat) ∧
    (if 2^1073 ≤ |z| ∧ |z| < 2^1074 then (|z| * 2^53 / 2^1074).toNat else 0 : Nat) < 2^53
  rw [if_pos ⟨h1, h2⟩]
  -- the exponent is 1022
  have hexp : expo x = 1022 := by
    have hge : magN (1022 * 2^52) ≤ magN (low x) := by
      have : magN (1022 * 2^52) = 2^1073 := by decide +kernel
      rw [this]; rw [hz] at h1; exact_mod_cast h1
    have hlt : magN (low x) < magN (1023 * 2^52) := by
      have : magN (1023 * 2^52) = 2^1074 := by decide +kernel
      rw [this]; rw [hz] at h2; exact_mod_cast h2
    have hge' := magN_strictMono.le_iff_le.1 hge
    have hlt' := magN_lt.1 hlt
    rw [expo_low]; omega
  have hmag : magN (low x) = (2^52 + mant x) * 2^1021 := by
    unfold magN; rw [← expo_low, ← mant_low, hexp, if_neg (by norm_num)]
  have hq : (|z| * 2^53 / 2^1074) = ((2^52 + mant x : Nat) : Int) := by
    rw [hz, hmag]
    generalize 2^52 + mant x = t
    have : ((t * 2^1021 : Nat) : Int) * 2^53 = (t : Int) * 2^1074 := by
      rw [Nat.cast_mul, Nat.cast_pow, mul_assoc]
      exact congrArg (fun q => (t : Int) * q) (by rw [show ((2:Nat):Int) = 2 from rfl, ← pow_add])
    rw [this]
    exact Int.mul_ediv_cancel _ (pow_ne_zero _ (by norm_num))
  have hmant : mant x < 2^52 := Nat.mod_lt _ (by norm_num)
  rw [hq, Int.toNat_natCast]
  refine ⟨?_, by omega, by omega⟩
  rw [hz, hmag]; push_cast; rfl

/-- Outside `[0.5, 1)` the answer is 0. -/
theorem C20_normfr_mantissa_other {x : Bits} (h : ∀ z, val x = .fin z → ¬ (2^1073 ≤ |z| ∧ |z| < 2^1074)) :
    normfrMantissa x = 0 := by
  unfold normfrMantissa
  rw [show BitVec.ofNat 64 (x.toNat % 2^63) = abs x from rfl]
  obtain ⟨a, b⟩ := C20_abs x
  rcases lt_trichotomy (low x) infN with h' | h' | h'
  · have hv := val_fin x h'
    rw [C20_abs_value hv]
    exact if_neg (h _ hv)
  · rw [val_inf (abs x) (by omega)]
  · rw [(val_nan (abs x)).2 (by omega)]

/-- `ldshiftexp` is refuted: it should return a float, but its code (marked `todo fix`) ignores the exponent argument
and returns the pair of `frshiftexp`. -/
theorem C20_ldshiftexp_refuted (x : Bits) (y y' : Nat) : ldshiftexp x y = ldshiftexp x y' ∧
    ldshiftexp x y = frshiftexp x := ⟨rfl, rfl⟩

/-- `of_uint63` converts the signed reading of the integer. For integers of at least `2^62` it converts a negative
number, so no rounding mode gives the double nearest to the (positive) integer. -/
theorem C20_of_uint63_refuted (n : Nat) (h : 2^62 ≤ n) (h' : n < 2^63) : ofUint63Arg n < 0 := by
  unfold ofUint63Arg; split_ifs <;> omega

theorem C20_of_uint63_partial (n : Nat) (h : n < 2^62) : ofUint63Arg n = n := by
  unfold ofUint63Arg; rw [if_pos h]

end CFloat
