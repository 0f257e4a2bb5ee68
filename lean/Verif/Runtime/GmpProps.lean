import Verif.Runtime.GmpModel

/-!
# C21: GMP-backed integers

`Reads v z`: the value `v` represents the integer `z`: either a tagged word, for `z` between `-2^62` and `2^62 - 1`, or
a pointer to an `mpz` holding `z`. Representations are not unique (a small number may be stored as `mpz`).
-/

namespace Gmp

/-- What a `gmp_int` stands for. -/
inductive Reads : GInt → Int → Prop where
  | long (z : Int) (h1 : -2^62 ≤ z) (h2 : z < 2^62) : Reads (.long (2 * z + 1)) z
  | big (z : Int) : Reads (.big z) z

theorem reads_long {w z : Int} (h : Reads (.long w) z) : w = 2 * z + 1 ∧ -2^62 ≤ z ∧ z < 2^62 := by
  generalize hv : GInt.long w = v at h
  cases h with
  | long z h1 h2 => injection hv with hv; exact ⟨hv, h1, h2⟩
  | big z => cases hv

theorem reads_big {w z : Int} (h : Reads (.big w) z) : w = z := by
  generalize hv : GInt.big w = v at h
  cases h with
  | long z h1 h2 => cases hv
  | big z => injection hv

theorem reads_unique {v : GInt} {a b : Int} (h : Reads v a) (h' : Reads v b) : a = b := by
  cases v with
  | long w => have := reads_long h; have := reads_long h'; omega
  | big w => have := reads_big h; have := reads_big h'; omega

theorem longVal_tag (z : Int) : longVal (2 * z + 1) = z := by unfold longVal; omega

theorem valLong_small {z : Int} (h1 : -2^62 ≤ z) (h2 : z < 2^62) : valLong z = 2 * z + 1 := by
  unfold valLong wrap; omega

theorem reads_valLong {z : Int} (h1 : -2^62 ≤ z) (h2 : z < 2^62) : Reads (.long (valLong z)) z := by
  rw [valLong_small h1 h2]; exact .long z h1 h2

/-- Conversion to GMP is right for non-negative integers and for big ones … -/
theorem C21_mpz_of_value_partial {v : GInt} {z : Int} (h : Reads v z) (hz : 0 ≤ z ∨ ∃ b, v = .big b) :
    mpzOfValue v = z := by
  cases h with
  | long z h1 h2 =>
    simp only [mpzOfValue, longVal_tag]
    rcases hz with hz | ⟨b, hb⟩
    · omega
    · cases hb
  | big z => rfl

/-- … and adds `2^64` to every negative machine integer. -/
theorem C21_mpz_of_value_refuted (z : Int) (h1 : -2^62 ≤ z) (h2 : z < 0) :
    Reads (.long (2 * z + 1)) z ∧ mpzOfValue (.long (2 * z + 1)) = z + 2^64 := by
  refine ⟨.long z h1 (by omega), ?_⟩
  simp only [mpzOfValue, longVal_tag]; omega

theorem C21_succ {v : GInt} {z : Int} (h : Reads v z) : Reads (succ v) (z + 1) := by
  cases h with
  | long z h1 h2 =>
    unfold succ
    simp only [longVal_tag]
    by_cases c : z < maxLong
    · rw [if_pos c]; exact reads_valLong (by omega) (by unfold maxLong at c; omega)
    · rw [if_neg c]
      have : mpzOfValue (.long (2 * z + 1)) = z := by
        simp only [mpzOfValue, longVal_tag]; unfold maxLong at c; omega
      rw [this]; exact .big _
  | big z => exact .big _

theorem C21_pred_partial {v : GInt} {z : Int} (h : Reads v z) (hz : v ≠ .long (2 * (-2^62) + 1)) :
    Reads (pred v) (z - 1) := by
  cases h with
  | long z h1 h2 =>
    unfold pred
    simp only [longVal_tag]
    have : z > minLong := by
      unfold minLong
      by_contra h
      exact hz (by rw [show z = -2^62 by omega])
    rw [if_pos this]
    exact reads_valLong (by unfold minLong at this; omega) (by omega)
  | big z => exact .big _

/-- The predecessor of the least machine integer is a positive number. -/
theorem C21_pred_refuted : ∃ v, Reads v (-2^62) ∧ Reads (pred v) (2^64 - 2^62 - 1) :=
  ⟨.long (2 * (-2^62) + 1), .long _ (by norm_num) (by norm_num), by
    have : pred (.long (2 * (-2^62) + 1)) = .big (2^64 - 2^62 - 1) := by decide
    rw [this]; exact .big _⟩

theorem C21_is_zero {v : GInt} {z : Int} (h : Reads v z) : isZero v = true ↔ z = 0 := by
  cases h with
  | long z h1 h2 => simp [isZero, longVal_tag]
  | big z => simp [isZero]

/-- Natural-number predecessor (used for `nat` represented by GMP integers). -/
theorem C21_nat_pred {v : GInt} {n : Nat} (h : Reads v n) : Reads (natPred v) ((n - 1 : Nat) : Int) := by
  generalize hz : (n : Int) = z at h
  cases h with
  | long z h1 h2 =>
    unfold natPred
    have e : ((2 * z + 1) % 2^64) / 2 = z := by omega
    simp only [e]
    by_cases c : z = 0
    · rw [if_pos c]
      have hn : ((n - 1 : Nat) : Int) = z := by omega
      rw [hn]; exact .long z h1 h2
    · rw [if_neg c]
      have hn : ((n - 1 : Nat) : Int) = z - 1 := by omega
      rw [hn]; exact reads_valLong (by omega) (by omega)
  | big z =>
    unfold natPred
    by_cases c : z = 0
    · simp only [if_pos c]
      have hn : ((n - 1 : Nat) : Int) = z := by omega
      rw [hn]; exact .big _
    · simp only [if_neg c]
      have hn : ((n - 1 : Nat) : Int) = z - 1 := by omega
      rw [hn]; exact .big _

/-- `z_abs` is right on big integers and on machine integers from 0 to `2^61 - 1`. -/
theorem C21_abs_partial {v : GInt} {z : Int} (h : Reads v z) (hz : (∃ b, v = .big b) ∨ (0 ≤ z ∧ z < 2^61)) :
    ∃ r, zabs v = some r ∧ Reads r |z| := by
  cases h with
  | long z h1 h2 =>
    rcases hz with ⟨b, hb⟩ | ⟨h3, h4⟩
    · cases hb
    have e : valLong (2 * z + 1) = 4 * z + 3 := by unfold valLong wrap; omega
    unfold zabs
    simp only [e]
    rw [if_neg (by omega)]
    refine ⟨_, rfl, ?_⟩
    rw [abs_of_nonneg (by omega), abs_of_nonneg h3]
    have : longVal (4 * z + 3) = 2 * z + 1 := by unfold longVal; omega
    rw [this]; exact .long z h1 h2
  | big z => exact ⟨_, rfl, .big _⟩

/-- On every negative machine integer down to `-2^61` the result is an even word, i.e. not an integer at all. -/
theorem C21_abs_refuted (z : Int) (h1 : -2^61 ≤ z) (h2 : z < 0) :
    ∃ w, zabs (.long (2 * z + 1)) = some (.long w) ∧ w % 2 = 0 := by
  have e : valLong (2 * z + 1) = 4 * z + 3 := by unfold valLong wrap; omega
  unfold zabs
  simp only [e]
  rw [if_neg (by omega)]
  refine ⟨_, rfl, ?_⟩
  rw [abs_of_neg (by omega)]
  unfold longVal; omega

theorem C21_neg_partial {v : GInt} {z : Int} (h : Reads v z) (hz : v ≠ .long (2 * (-2^62) + 1)) :
    Reads (neg v) (-z) := by
  cases h with
  | long z h1 h2 =>
    have hm : z ≠ -2^62 := fun h => hz (by rw [h])
    unfold neg
    simp only [longVal_tag]
    by_cases c : z < maxLong
    · rw [if_pos c]; exact reads_valLong (by unfold maxLong at c; omega) (by omega)
    · rw [if_neg c]; exact .big _
  | big z => exact .big _

/-- The opposite of the least machine integer is itself. -/
theorem C21_neg_refuted : ∃ v, Reads v (-2^62) ∧ Reads (neg v) (-2^62) :=
  ⟨.long (2 * (-2^62) + 1), .long _ (by norm_num) (by norm_num), by
    have : neg (.long (2 * (-2^62) + 1)) = .long (2 * (-2^62) + 1) := by decide
    rw [this]; exact .long _ (by norm_num) (by norm_num)⟩

/-- Addition is right exactly when both numbers are machine integers and the sum is a non-negative one. -/
theorem C21_add_partial (a b : Int) (ha : -2^62 ≤ a) (ha' : a < 2^62) (hb : -2^62 ≤ b) (hb' : b < 2^62) :
    (∃ r, add (.long (2 * a + 1)) (.long (2 * b + 1)) = some r ∧ Reads r (a + b)) ↔ 0 ≤ a + b ∧ a + b < 2^62 := by
  unfold add
  simp only [longVal_tag]
  constructor
  · rintro ⟨r, h, hr⟩
    split_ifs at h with c
    · simp only [Option.some.injEq] at h
      subst h
      generalize hs : a + b = t at *
      have ht : 0 ≤ t := by omega
      refine ⟨ht, ?_⟩
      exact (reads_long hr).2.2
    · cases h
  · rintro ⟨h1, h2⟩
    have e : (a + b) % 2^64 = a + b := by omega
    rw [e, if_pos (by omega)]
    exact ⟨_, rfl, reads_valLong (by omega) h2⟩

/-- Any addition involving a big integer, and any addition with a negative sum, uses an uninitialised `mpz_t`. -/
theorem C21_add_refuted (x y : GInt) (a b : Int) (hx : Reads x a) (hy : Reads y b)
    (h : (∃ z, x = .big z) ∨ (∃ z, y = .big z) ∨ a + b < 0) : add x y = none := by
  cases hx with
  | big z => cases hy <;> rfl
  | long z h1 h2 =>
    cases hy with
    | big z => rfl
    | long w h3 h4 =>
      rcases h with ⟨_, h⟩ | ⟨_, h⟩ | h
      · cases h
      · cases h
      · unfold add
        simp only [longVal_tag]
        rw [if_neg (by omega)]; rfl

/-- Subtraction of machine integers is right exactly when the difference is a machine integer. -/
theorem C21_sub_partial (a b : Int) (_ha : -2^62 ≤ a) (_ha' : a < 2^62) (_hb : -2^62 ≤ b) (_hb' : b < 2^62) :
    Reads (sub (.long (2 * a + 1)) (.long (2 * b + 1))) (a - b) ↔ -2^62 ≤ a - b ∧ a - b < 2^62 := by
  unfold sub
  simp only [longVal_tag]
  constructor
  · intro h
    generalize a - b = t at *
    exact (reads_long h).2
  · rintro ⟨h1, h2⟩; exact reads_valLong h1 h2

/-- With a big operand, subtraction is right when no machine-integer operand is negative. -/
theorem C21_sub_big_partial {x y : GInt} {a b : Int} (hx : Reads x a) (hy : Reads y b)
    (hbig : (∃ z, x = .big z) ∨ (∃ z, y = .big z)) (ha : 0 ≤ a ∨ ∃ z, x = .big z) (hb : 0 ≤ b ∨ ∃ z, y = .big z) :
    Reads (sub x y) (a - b) := by
  have e1 := C21_mpz_of_value_partial hx ha
  have e2 := C21_mpz_of_value_partial hy hb
  have : sub x y = .big (mpzOfValue x - mpzOfValue y) := by
    cases x <;> cases y <;> try rfl
    rcases hbig with ⟨_, h⟩ | ⟨_, h⟩ <;> cases h
  rw [this, e1, e2]; exact .big _

/-- Multiplication is right when no machine-integer operand is negative … -/
theorem C21_mul_partial {x y : GInt} {a b : Int} (hx : Reads x a) (hy : Reads y b)
    (ha : 0 ≤ a ∨ ∃ z, x = .big z) (hb : 0 ≤ b ∨ ∃ z, y = .big z) : Reads (mul x y) (a * b) := by
  unfold mul
  rw [C21_mpz_of_value_partial hx ha, C21_mpz_of_value_partial hy hb]
  exact .big _

/-- … and wrong for every negative machine integer times a non-zero non-negative one. -/
theorem C21_mul_refuted (a b : Int) (ha : -2^62 ≤ a) (ha' : a < 0) (hb : 0 < b) (hb' : b < 2^62) :
    ¬ Reads (mul (.long (2 * a + 1)) (.long (2 * b + 1))) (a * b) := by
  intro h
  unfold mul at h
  rw [(C21_mpz_of_value_refuted a ha ha').2, C21_mpz_of_value_partial (.long b (by omega) hb') (.inl (by omega))] at h
  have := reads_unique h (.big _)
  nlinarith

/-- Division of non-negative machine integers by positive ones. -/
theorem C21_div_partial (a b : Int) (ha : 0 ≤ a) (ha' : a < 2^62) (hb : 0 < b) (_hb' : b < 2^62) :
    ∃ r, div (.long (2 * a + 1)) (.long (2 * b + 1)) = some r ∧ Reads r (a / b) := by
  unfold div
  simp only [longVal_tag]
  rw [if_neg (by omega)]
  refine ⟨_, rfl, ?_⟩
  rw [Int.tdiv_eq_ediv_of_nonneg ha]
  have h1 := Int.ediv_nonneg ha (le_of_lt hb)
  have h2 := Int.ediv_le_self b ha
  exact reads_valLong (by omega) (by omega)

/-- Small and big representations disagree: `7 / 2` is 3 for machine integers and 4 for GMP integers. -/
theorem C21_div_refuted : div (.long 15) (.long 5) = some (.long 7) ∧ div (.big 7) (.big 2) = some (.big 4) ∧
    Reads (.long 15) 7 ∧ Reads (.long 5) 2 ∧ Reads (.long 7) 3 := by
  refine ⟨by decide, by decide, ?_, ?_, ?_⟩
  · exact .long 7 (by norm_num) (by norm_num)
  · exact .long 2 (by norm_num) (by norm_num)
  · exact .long 3 (by norm_num) (by norm_num)

theorem C21_rem_partial (a b : Int) (ha : 0 ≤ a) (ha' : a < 2^62) (hb : 0 < b) (_hb' : b < 2^62) :
    ∃ r, rem (.long (2 * a + 1)) (.long (2 * b + 1)) = some r ∧ Reads r (a % b) := by
  unfold rem
  simp only [longVal_tag]
  rw [if_neg (by omega)]
  refine ⟨_, rfl, ?_⟩
  rw [Int.tmod_eq_emod_of_nonneg ha]
  have h1 := Int.emod_nonneg a (ne_of_gt hb)
  have h2 := Int.emod_lt_of_pos a hb
  exact reads_valLong (by omega) (by omega)

/-- The big case of the remainder calls the addition function. -/
theorem C21_rem_refuted (x y : GInt) (h : (∃ z, x = .big z) ∨ (∃ z, y = .big z)) : rem x y = none := by
  cases x <;> cases y <;> try rfl
  rcases h with ⟨_, h⟩ | ⟨_, h⟩ <;> cases h

theorem C21_pow_partial {x y : GInt} {a : Int} {b : Nat} (hx : Reads x a) (hy : Reads y b)
    (ha : 0 ≤ a ∨ ∃ z, x = .big z) (hb : b < 2^64) : Reads (pow x y) (a ^ b) := by
  unfold pow
  rw [C21_mpz_of_value_partial hx ha, C21_mpz_of_value_partial hy (.inl (by omega)), Int.natAbs_natCast,
    Nat.mod_eq_of_lt hb]
  exact .big _

theorem C21_lognot {v : GInt} {z : Int} (h : Reads v z) : Reads (lognot v) (-z - 1) := by
  cases h with
  | long z h1 h2 =>
    unfold lognot
    simp only [longVal_tag]
    exact reads_valLong (by omega) (by omega)
  | big z => exact .big _

/-! ### comparisons -/

/-- Compiled booleans (`true` has ordinal 1). -/
def boolW (p : Prop) [Decidable p] : Int := if p then 3 else 1

theorem cmp_zero (C : MpzCmp) (x y : Int) : C.cmp x y = 0 ↔ x = y := by
  have := C.pos x y; have := C.neg x y; omega

/-- The operands the comparison functions read correctly: not a negative machine integer next to a big one. -/
def Fair (x y : GInt) (a b : Int) : Prop :=
  ((∃ w, x = .long w) ∧ ∃ w, y = .long w) ∨ ((0 ≤ a ∨ ∃ z, x = .big z) ∧ (0 ≤ b ∨ ∃ z, y = .big z))

theorem fair_cases {x y : GInt} {a b : Int} (hx : Reads x a) (hy : Reads y b) (h : Fair x y a b) :
    (x = .long (2 * a + 1) ∧ y = .long (2 * b + 1)) ∨
    (((∃ z, x = .big z) ∨ ∃ z, y = .big z) ∧ mpzOfValue x = a ∧ mpzOfValue y = b) := by
  cases hx with
  | long z h1 h2 =>
    cases hy with
    | long w h3 h4 => exact .inl ⟨rfl, rfl⟩
    | big w =>
      rcases h with ⟨_, _, h⟩ | ⟨h5, h6⟩
      · cases h
      · exact .inr ⟨.inr ⟨_, rfl⟩, C21_mpz_of_value_partial (.long _ h1 h2) h5, rfl⟩
  | big z =>
    rcases h with ⟨⟨_, h⟩, _⟩ | ⟨h5, h6⟩
    · cases h
    · exact .inr ⟨.inl ⟨_, rfl⟩, rfl, C21_mpz_of_value_partial hy h6⟩

theorem mkBool_decide (p q : Prop) [Decidable p] [Decidable q] (h : p ↔ q) : mkBool (decide p) = boolW q := by
  unfold mkBool boolW
  by_cases hp : p
  · rw [if_pos (h.1 hp)]; simp [hp]
  · rw [if_neg (fun hq => hp (h.2 hq))]; simp [hp]

theorem C21_equal_partial (C : MpzCmp) {x y : GInt} {a b : Int} (hx : Reads x a) (hy : Reads y b)
    (hf : Fair x y a b) : equal C x y = boolW (a = b) := by
  rcases fair_cases hx hy hf with ⟨rfl, rfl⟩ | ⟨hb, e1, e2⟩
  · exact mkBool_decide _ _ (by omega)
  · have : equal C x y = mkBool (decide (C.cmp (mpzOfValue x) (mpzOfValue y) = 0)) := by
      cases x <;> cases y <;> try rfl
      rcases hb with ⟨_, h⟩ | ⟨_, h⟩ <;> cases h
    rw [this, e1, e2]; exact mkBool_decide _ _ (cmp_zero C a b)

theorem C21_geq_partial (C : MpzCmp) {x y : GInt} {a b : Int} (hx : Reads x a) (hy : Reads y b)
    (hf : Fair x y a b) : geq C x y = boolW (b ≤ a) := by
  rcases fair_cases hx hy hf with ⟨rfl, rfl⟩ | ⟨hb, e1, e2⟩
  · unfold geq; simp only [longVal_tag]; exact mkBool_decide _ _ Iff.rfl
  · have : geq C x y = mkBool (decide (0 ≤ C.cmp (mpzOfValue x) (mpzOfValue y))) := by
      cases x <;> cases y <;> try rfl
      rcases hb with ⟨_, h⟩ | ⟨_, h⟩ <;> cases h
    rw [this, e1, e2]
    exact mkBool_decide _ _ (by have := C.neg a b; omega)

theorem C21_gt_partial (C : MpzCmp) {x y : GInt} {a b : Int} (hx : Reads x a) (hy : Reads y b)
    (hf : Fair x y a b) : gt C x y = boolW (b < a) := by
  rcases fair_cases hx hy hf with ⟨rfl, rfl⟩ | ⟨hb, e1, e2⟩
  · unfold gt; simp only [longVal_tag]; exact mkBool_decide _ _ Iff.rfl
  · have : gt C x y = mkBool (decide (0 < C.cmp (mpzOfValue x) (mpzOfValue y))) := by
      cases x <;> cases y <;> try rfl
      rcases hb with ⟨_, h⟩ | ⟨_, h⟩ <;> cases h
    rw [this, e1, e2]
    exact mkBool_decide _ _ (C.pos a b)

theorem C21_lt_partial (C : MpzCmp) {x y : GInt} {a b : Int} (hx : Reads x a) (hy : Reads y b)
    (hf : Fair x y a b) : lt C x y = boolW (a < b) := by
  rcases fair_cases hx hy hf with ⟨rfl, rfl⟩ | ⟨hb, e1, e2⟩
  · exact mkBool_decide _ _ (by omega)
  · have : lt C x y = mkBool (decide (C.cmp (mpzOfValue x) (mpzOfValue y) < 0)) := by
      cases x <;> cases y <;> try rfl
      rcases hb with ⟨_, h⟩ | ⟨_, h⟩ <;> cases h
    rw [this, e1, e2]
    exact mkBool_decide _ _ (C.neg a b)

theorem C21_leq_partial (C : MpzCmp) (a b : Int) :
    leq C (.long (2 * a + 1)) (.long (2 * b + 1)) = boolW (a ≤ b) := by
  unfold leq; simp only [longVal_tag]; exact mkBool_decide _ _ Iff.rfl

/-- On big integers `z_leq` decides equality: wrong whenever `a < b`. -/
theorem C21_leq_refuted (C : MpzCmp) (a b : Int) (h : a < b) :
    leq C (.big a) (.big b) = 1 ∧ leq C (.big a) (.big b) ≠ boolW (a ≤ b) := by
  have : leq C (.big a) (.big b) = 1 := by
    show mkBool (decide (C.cmp a b = 0)) = 1
    have h1 : ¬ C.cmp a b = 0 := by rw [cmp_zero]; omega
    simp [mkBool, h1]
  rw [this]
  refine ⟨rfl, ?_⟩
  unfold boolW; rw [if_pos (by omega)]; decide

theorem C21_compare_partial (C : MpzCmp) (a b : Int) :
    compare C (.long (2 * a + 1)) (.long (2 * b + 1)) = if a = b then 1 else if a < b then 3 else 5 := by
  unfold compare; simp only [longVal_tag]

/-- On big integers `z_compare` never reports `Lt` (word 3) for `a < b`, unless the comparison function of GMP answers
with a number outside the range of a C `int`. -/
theorem C21_compare_refuted (C : MpzCmp) (a b : Int) (h : a < b) (hi : -2^31 ≤ C.cmp a b) :
    compare C (.big a) (.big b) ≠ 3 := by
  show valLong (C.cmp a b) ≠ 3
  have := (C.neg a b).2 h
  rw [valLong_small (by omega) (by omega)]
  omega

theorem C21_max_partial (C : MpzCmp) (a b : Int) (ha : -2^62 ≤ a) (ha' : a < 2^62) (hb : -2^62 ≤ b) (hb' : b < 2^62) :
    Reads (max C (.long (2 * a + 1)) (.long (2 * b + 1))) (Max.max a b) ∧
    Reads (min C (.long (2 * a + 1)) (.long (2 * b + 1))) (Min.min a b) := by
  unfold max min
  simp only [longVal_tag]
  constructor
  · by_cases h : a > b
    · rw [if_pos h, max_eq_left (by omega)]; exact .long a ha ha'
    · rw [if_neg h, max_eq_right (by omega)]; exact .long b hb hb'
  · by_cases h : a < b
    · rw [if_pos h, min_eq_left (by omega)]; exact .long a ha ha'
    · rw [if_neg h, min_eq_right (by omega)]; exact .long b hb hb'

/-- On big integers `max` returns its first argument, `min` its second, whenever they differ. -/
theorem C21_max_refuted (C : MpzCmp) (a b : Int) (h : a < b) :
    Reads (max C (.big a) (.big b)) a ∧ Reads (min C (.big a) (.big b)) b := by
  have h1 : C.cmp a b ≠ 0 := by rw [Ne, cmp_zero]; omega
  have e1 : max C (.big a) (.big b) = .big a := if_pos h1
  have e2 : min C (.big a) (.big b) = .big b := if_pos h1
  rw [e1, e2]; exact ⟨.big _, .big _⟩

/-- A comparison function satisfying the specification exists. -/
def stdCmp : MpzCmp where
  cmp x y := x - y
  pos x y := by omega
  neg x y := by omega

example : Reads (succ (.long (2 * (2^62 - 1) + 1))) (2^62) := by
  have := C21_succ (.long (2^62 - 1) (by norm_num) (by norm_num)); simpa using this
example : lt stdCmp (.long (2 * 5 + 1)) (.big (2^70)) = 3 := by
  rw [C21_lt_partial stdCmp (.long 5 (by norm_num) (by norm_num)) (.big (2^70))
    (.inr ⟨.inl (by norm_num), .inr ⟨_, rfl⟩⟩)]
  decide

end Gmp
