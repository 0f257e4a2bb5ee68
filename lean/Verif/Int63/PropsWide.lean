import Verif.Int63.Lemmas

/-!
# C07, C08: double-width operations and bit counting of the C runtime
-/

namespace Int63
open Uint63

/-! ## C08 -/

set_option maxHeartbeats 1000000 in
theorem C08_head0 {x : Nat} (hx : x < 2^63) : ∃ n, head0 (word x) = word n ∧ IsHead0 x n := by
  unfold head0
  generalize hu : ulongVal (word x) = u
  have hun : u.toNat = x := by rw [← hu]; exact ulongVal_word hx
  have key := and_mask_eq_zero u 0x7FFFFFFF00000000 31 32 (by decide) (by omega)
  -- the state after the first test
  have h0 : ∃ a r, (if u &&& 0x7FFFFFFF00000000 = 0 then ((u, 31) : W × W) else (u >>> 31, 0)) = (a, r) ∧
      a.toNat < 2^32 ∧ ((x < 2^32 ∧ a.toNat = x ∧ r.toNat = 31) ∨ (2^32 ≤ x ∧ a.toNat = x / 2^31 ∧ r.toNat = 0)) := by
    by_cases h : u &&& 0x7FFFFFFF00000000 = 0
    · have := key.1 h
      refine ⟨u, 31, by simp only [h, if_true], by omega, Or.inl ⟨by omega, by omega, rfl⟩⟩
    · have : ¬ u.toNat < 2^32 := fun h' => h (key.2 h')
      have e : (u >>> 31).toNat = x / 2^31 := by
        rw [BitVec.toNat_ushiftRight, Nat.shiftRight_eq_div_pow, hun]
      refine ⟨u >>> 31, 0, by simp only [h, if_false], by omega, Or.inr ⟨by omega, e, rfl⟩⟩
  obtain ⟨a0, r0, e0, ha0, hc⟩ := h0
  simp only [e0]
  obtain ⟨d1, b1, z1, p1, q1, l1, g1⟩ := head0Step_spec 0xFFFF0000 16 (by decide) (by decide) a0 r0 ha0
    (by omega) (by omega)
  generalize head0Step 0xFFFF0000 16 (a0, r0) = s1 at *
  obtain ⟨a1, r1⟩ := s1
  simp only at p1 q1 l1 g1
  obtain ⟨d2, b2, z2, p2, q2, l2, g2⟩ := head0Step_spec 0xFF000000 8 (by decide) (by decide) a1 r1 l1
    (by omega) (by omega)
  generalize head0Step 0xFF000000 8 (a1, r1) = s2 at *
  obtain ⟨a2, r2⟩ := s2
  simp only at p2 q2 l2 g2
  obtain ⟨d3, b3, z3, p3, q3, l3, g3⟩ := head0Step_spec 0xF0000000 4 (by decide) (by decide) a2 r2 l2
    (by omega) (by omega)
  generalize head0Step 0xF0000000 4 (a2, r2) = s3 at *
  obtain ⟨a3, r3⟩ := s3
  simp only at p3 q3 l3 g3
  obtain ⟨d4, b4, z4, p4, q4, l4, g4⟩ := head0Step_spec 0xC0000000 2 (by decide) (by decide) a3 r3 l3
    (by omega) (by omega)
  generalize head0Step 0xC0000000 2 (a3, r3) = s4 at *
  obtain ⟨a4, r4⟩ := s4
  simp only at p4 q4 l4 g4
  obtain ⟨d5, b5, z5, p5, q5, l5, g5⟩ := head0Step_spec 0x80000000 1 (by decide) (by decide) a4 r4 l4
    (by omega) (by omega)
  generalize head0Step 0x80000000 1 (a4, r4) = s5 at *
  obtain ⟨a5, r5⟩ := s5
  simp only at p5 q5 l5 g5
  have key5 := and_mask_eq_zero a5 0x80000000 1 31 (by decide) (by omega)
  have hprod : a5.toNat = a0.toNat * 2^(d1+d2+d3+d4+d5) := by
    rw [p5, p4, p3, p2, p1]; ring
  simp only
  refine ⟨(if a5 &&& 0x80000000 = 0 then r5 + 1 else r5).toNat, ?_, ?_⟩
  · apply valLong_eq
    apply Nat.mod_eq_of_lt
    have e1 : (1 : W).toNat = 1 := rfl
    by_cases h : a5 &&& 0x80000000 = 0
    · rw [if_pos h, BitVec.toNat_add, e1]; omega
    · rw [if_neg h]; omega
  · by_cases hx0 : x = 0
    · left
      have ha00 : a0.toNat = 0 := by omega
      have h1 : a1.toNat = 0 := by rw [p1, ha00]; simp
      have h2 : a2.toNat = 0 := by rw [p2, h1]; simp
      have h3 : a3.toNat = 0 := by rw [p3, h2]; simp
      have h4 : a4.toNat = 0 := by rw [p4, h3]; simp
      have h5 : a5.toNat = 0 := by rw [p5, h4]; simp
      have := z1 ha00; have := z2 h1; have := z3 h2; have := z4 h3; have := z5 h4
      refine ⟨hx0, ?_⟩
      rw [if_pos (key5.2 (by omega)), BitVec.toNat_add]
      show (_ + 1) % _ = _
      omega
    · right
      have hpos : 0 < a0.toNat := by
        rcases hc with h | h
        · omega
        · rw [h.2.1]; omega
      have hne5 : a5.toNat ≠ 0 := by
        rw [hprod]; positivity
      have hge : 2^31 ≤ a5.toNat := by omega
      rw [if_neg (fun e => by have := key5.1 e; omega)]
      generalize hD : d1 + d2 + d3 + d4 + d5 = D at *
      have hr5 : r5.toNat = r0.toNat + D := by omega
      rw [hr5]
      rcases hc with ⟨_, e, er⟩ | ⟨hxl, e, er⟩
      · rw [er, pow_add, show x * (2^31 * 2^D) = (x * 2^D) * 2^31 by ring, ← e, ← hprod]
        omega
      · rw [er, Nat.zero_add]
        have hD31 : D ≤ 31 := by omega
        rw [e] at hprod
        have hup : x / 2^31 * 2^D < 2^32 := by omega
        have hlo : 2^31 ≤ x / 2^31 * 2^D := by omega
        have hs : (2:Nat)^32 = 2^(32-D) * 2^D := by rw [← pow_add]; congr 1; omega
        have hs' : (2:Nat)^63 = 2^31 * 2^(32-D) * 2^D := by rw [← pow_add, ← pow_add]; congr 1; omega
        have h1 : x / 2^31 < 2^(32-D) := by
          rw [hs] at hup; exact Nat.lt_of_mul_lt_mul_right hup
        have h2 : x < 2^31 * 2^(32-D) := by
          rw [Nat.mul_comm]; exact (Nat.div_lt_iff_lt_mul (by positivity)).1 h1
        constructor
        · calc 2^62 = 2^31 * 2^31 := by norm_num
            _ ≤ (x / 2^31 * 2^D) * 2^31 := Nat.mul_le_mul_right _ hlo
            _ = (x / 2^31 * 2^31) * 2^D := by ring
            _ ≤ x * 2^D := Nat.mul_le_mul_right _ (Nat.div_mul_le_self _ _)
        · rw [hs']; exact Nat.mul_lt_mul_of_pos_right h2 (by positivity)

theorem C08_tail0 {x : Nat} (hx : x < 2^63) : ∃ n, tail0 (word x) = word n ∧ IsTail0 x n := by
  unfold tail0
  generalize hu : ulongVal (word x) = u
  have hun : u.toNat = x := by rw [← hu]; exact ulongVal_word hx
  simp only
  obtain ⟨d1, b1, z1, p1, q1, g1⟩ := tail0Step_spec 0xFFFFFFFF 32 (by decide) (by decide) u 0 (by decide)
    (by
      by_cases h : u.toNat = 0
      · exact Or.inl h
      · right; intro hd; have := Nat.le_of_dvd (by omega) hd; omega)
  generalize tail0Step 0xFFFFFFFF 32 (u, 0) = s1 at *
  obtain ⟨a1, r1⟩ := s1
  simp only [show (0 : W).toNat = 0 from rfl] at p1 q1 g1
  obtain ⟨d2, b2, z2, p2, q2, g2⟩ := tail0Step_spec 0xFFFF 16 (by decide) (by decide) a1 r1 (by omega) g1
  generalize tail0Step 0xFFFF 16 (a1, r1) = s2 at *
  obtain ⟨a2, r2⟩ := s2
  simp only at p2 q2 g2
  obtain ⟨d3, b3, z3, p3, q3, g3⟩ := tail0Step_spec 0xFF 8 (by decide) (by decide) a2 r2 (by omega) g2
  generalize tail0Step 0xFF 8 (a2, r2) = s3 at *
  obtain ⟨a3, r3⟩ := s3
  simp only at p3 q3 g3
  obtain ⟨d4, b4, z4, p4, q4, g4⟩ := tail0Step_spec 0xF 4 (by decide) (by decide) a3 r3 (by omega) g3
  generalize tail0Step 0xF 4 (a3, r3) = s4 at *
  obtain ⟨a4, r4⟩ := s4
  simp only at p4 q4 g4
  obtain ⟨d5, b5, z5, p5, q5, g5⟩ := tail0Step_spec 0x3 2 (by decide) (by decide) a4 r4 (by omega) g4
  generalize tail0Step 0x3 2 (a4, r4) = s5 at *
  obtain ⟨a5, r5⟩ := s5
  simp only at p5 q5 g5
  have key := and_lowmask_eq_zero a5 0x1 1 (by decide)
  simp only
  refine ⟨(if a5 &&& 0x1 = 0 then r5 + 1 else r5).toNat, ?_, ?_⟩
  · apply valLong_eq
    apply Nat.mod_eq_of_lt
    have e1 : (1 : W).toNat = 1 := rfl
    by_cases h : a5 &&& 0x1 = 0
    · rw [if_pos h, BitVec.toNat_add, e1]; omega
    · rw [if_neg h]; omega
  · have hprod : x = a5.toNat * 2^(d1+d2+d3+d4+d5) := by
      rw [← hun, p1, p2, p3, p4, p5]; ring
    by_cases hx0 : x = 0
    · left
      have h0 : u.toNat = 0 := by omega
      have nz : ∀ (a d : Nat), a * 2^d = 0 → a = 0 := by
        intro a d h
        rcases Nat.mul_eq_zero.1 h with h | h
        · exact h
        · exact absurd h (by positivity)
      have h1 : a1.toNat = 0 := nz _ d1 (by omega)
      have h2 : a2.toNat = 0 := nz _ d2 (by omega)
      have h3 : a3.toNat = 0 := nz _ d3 (by omega)
      have h4 : a4.toNat = 0 := nz _ d4 (by omega)
      have h5 : a5.toNat = 0 := nz _ d5 (by omega)
      have := z1 h0; have := z2 h1; have := z3 h2; have := z4 h3; have := z5 h4
      refine ⟨hx0, ?_⟩
      rw [if_pos (key.2 (by omega)), BitVec.toNat_add]
      show (_ + 1) % _ = _
      omega
    · right
      have h5 : a5.toNat ≠ 0 := by
        intro h; apply hx0; rw [hprod, h]; simp
      have h4 : ¬ 2^2 ∣ a5.toNat := by
        rcases g5 with h | h
        · exact absurd h h5
        · exact h
      generalize hD : d1 + d2 + d3 + d4 + d5 = D at *
      have hr5 : r5.toNat = D := by omega
      by_cases hodd : a5.toNat % 2 = 0
      · refine ⟨a5.toNat / 4, ?_⟩
        rw [if_pos (key.2 (by omega)), BitVec.toNat_add, hr5]
        have : (D + (1:W).toNat) % 2^64 = D + 1 := by show (_ + 1) % _ = _; omega
        rw [this, hprod, pow_add]
        have : a5.toNat = 2 * (2 * (a5.toNat / 4) + 1) := by
          have : ¬ a5.toNat % 4 = 0 := fun h => h4 (Nat.dvd_of_mod_eq_zero h)
          omega
        rw [this]
        have : 2 * (2 * (a5.toNat / 4) + 1) / 4 = a5.toNat / 4 := by omega
        rw [this]; ring
      · refine ⟨a5.toNat / 2, ?_⟩
        rw [if_neg (fun e => by have := key.1 e; omega), hr5, hprod]
        have : a5.toNat = 2 * (a5.toNat / 2) + 1 := by omega
        rw [this]
        have : (2 * (a5.toNat / 2) + 1) / 2 = a5.toNat / 2 := by omega
        rw [this]; ring

example : ∃ n, head0 (word 5) = word n ∧ IsHead0 5 n := C08_head0 (by decide)
example : head0 (word 5) = word 60 := by decide
example : tail0 (word 40) = word 3 := by decide

/-! ## C07: multiplication -/

/-- `mulc_aux` computes the exact double-width product, for all 63-bit operands (the precondition stated in its
comment is not needed). -/
theorem mulcAuxRaw_spec (x y : W) (hx : x.toNat < 2^63) (hy : y.toNat < 2^63) :
    (mulcAuxRaw x y).1.toNat = x.toNat * y.toNat / 2^63 ∧ (mulcAuxRaw x y).2.toNat = x.toNat * y.toNat % 2^63 := by
  have elx := toNat_and_maxuint31 x
  have ely := toNat_and_maxuint31 y
  have ehx : (x >>> 31).toNat = x.toNat / 2^31 := by rw [BitVec.toNat_ushiftRight, Nat.shiftRight_eq_div_pow]
  have ehy : (y >>> 31).toNat = y.toNat / 2^31 := by rw [BitVec.toNat_ushiftRight, Nat.shiftRight_eq_div_pow]
  generalize hlx : x &&& maxuint31 = lx at elx
  generalize hly : y &&& maxuint31 = ly at ely
  generalize hhx : x >>> 31 = hxw at ehx
  generalize hhy : y >>> 31 = hyw at ehy
  have dx : x.toNat = hxw.toNat * 2^31 + lx.toNat := by omega
  have dy : y.toNat = hyw.toNat * 2^31 + ly.toNat := by omega
  have bhx : hxw.toNat < 2^32 := by omega
  have bhy : hyw.toNat < 2^32 := by omega
  have blx : lx.toNat < 2^31 := by omega
  have bly : ly.toNat < 2^31 := by omega
  have hprod : x.toNat * y.toNat = hxw.toNat * hyw.toNat * 2^62
      + (hxw.toNat * ly.toNat + lx.toNat * hyw.toNat) * 2^31 + lx.toNat * ly.toNat := by
    rw [dx, dy]; ring
  unfold mulcAuxRaw
  simp only [hlx, hly, hhx, hhy]
  rw [hprod]
  clear hprod dx dy elx ely ehx ehy hlx hly hhx hhy hx hy
  have mulb : ∀ {a b c d : Nat}, a < c → b < d → a * b ≤ (c-1) * (d-1) :=
    fun h1 h2 => Nat.mul_le_mul (by omega) (by omega)
  have bA := mulb bhx bhy
  have bB := mulb bhx bly
  have bC := mulb blx bhy
  have bD := mulb blx bly
  have eA : (hxw * hyw).toNat = hxw.toNat * hyw.toNat := by
    rw [BitVec.toNat_mul]; apply Nat.mod_eq_of_lt; omega
  have eB : (hxw * ly).toNat = hxw.toNat * ly.toNat := by
    rw [BitVec.toNat_mul]; apply Nat.mod_eq_of_lt; omega
  have eC : (lx * hyw).toNat = lx.toNat * hyw.toNat := by
    rw [BitVec.toNat_mul]; apply Nat.mod_eq_of_lt; omega
  have eD : (lx * ly).toNat = lx.toNat * ly.toNat := by
    rw [BitVec.toNat_mul]; apply Nat.mod_eq_of_lt; omega
  rw [← eA] at bA ⊢
  rw [← eB] at bB ⊢
  rw [← eC] at bC ⊢
  rw [← eD] at bD ⊢
  clear eA eB eC eD mulb bhx bhy blx bly
  generalize hxw * hyw = A at *
  generalize hxw * ly = Bw at *
  generalize lx * hyw = C at *
  generalize lx * ly = D at *
  -- low part
  have el0 : (D ||| (A <<< 62)).toNat = D.toNat + (A.toNat % 4) * 2^62 := by
    rw [BitVec.toNat_or, BitVec.toNat_shiftLeft, Nat.shiftLeft_eq]
    have : A.toNat * 2^62 % 2^64 = (A.toNat % 4) * 2^62 := by omega
    rw [this]
    exact nat_or_eq_add (by omega)
  have eh0 : (A >>> 1).toNat = A.toNat / 2 := by rw [BitVec.toNat_ushiftRight, Nat.shiftRight_eq_div_pow]
  have ehl : ((Bw + C) &&& maxuint63).toNat = (Bw.toNat + C.toNat) % 2^63 := by
    rw [toNat_and_maxuint63, BitVec.toNat_add]; omega
  generalize (D ||| (A <<< 62)) = l0 at *
  generalize (A >>> 1) = h0 at *
  generalize (Bw + C) &&& maxuint63 = hl at *
  have ehl2 : ((hl <<< 31) &&& maxuint63).toNat = (hl.toNat % 2^32) * 2^31 := by
    rw [toNat_and_maxuint63, BitVec.toNat_shiftLeft, Nat.shiftLeft_eq]; omega
  generalize (hl <<< 31) &&& maxuint63 = hl2 at *
  have el1 : ((l0 + hl2) &&& maxuint63).toNat = (l0.toNat + hl2.toNat) % 2^63 := by
    rw [toNat_and_maxuint63, BitVec.toNat_add]; omega
  generalize (l0 + hl2) &&& maxuint63 = l1 at *
  have ehs : (hl >>> 32).toNat = hl.toNat / 2^32 := by rw [BitVec.toNat_ushiftRight, Nat.shiftRight_eq_div_pow]
  generalize (hl >>> 32) = hs at *
  have e31 : (1 <<< 31 : W).toNat = 2^31 := by decide
  generalize (1 <<< 31 : W) = c31 at *
  have e1 : (1 : W).toNat = 1 := rfl
  refine ⟨?_, by omega⟩
  simp only [BitVec.lt_def]
  have b1 : (h0 + c31).toNat = h0.toNat + c31.toNat := by rw [BitVec.toNat_add]; omega
  have b2 : (h0 + 1).toNat = h0.toNat + 1 := by rw [BitVec.toNat_add, e1]; omega
  have b3 : (h0 + c31 + 1).toNat = h0.toNat + c31.toNat + 1 := by rw [BitVec.toNat_add, b1, e1]; omega
  by_cases h1 : hl.toNat < Bw.toNat <;> by_cases h2 : l1.toNat < hl2.toNat
  · rw [if_pos h1, if_pos h2, BitVec.toNat_add, b3]; omega
  · rw [if_pos h1, if_neg h2, BitVec.toNat_add, b1]; omega
  · rw [if_neg h1, if_pos h2, BitVec.toNat_add, b2]; omega
  · rw [if_neg h1, if_neg h2, BitVec.toNat_add]; omega

theorem nat_xor_two_pow {n y : Nat} (h : 2^n ≤ y) (h' : y < 2^(n+1)) : y ^^^ 2^n = y - 2^n := by
  have hp : (2:Nat)^(n+1) = 2^n + 2^n := by rw [pow_succ]; omega
  have e : y = 2^n * 1 + (y - 2^n) := by omega
  have e2 := Nat.two_pow_add_eq_or_of_lt (show y - 2^n < 2^n by omega) 1
  apply Nat.eq_of_testBit_eq
  intro i
  rw [Nat.testBit_xor]
  conv_lhs => rw [e, e2, Nat.mul_one]
  rw [Nat.testBit_or]
  by_cases hi : i = n
  · subst hi
    have : (y - 2^i).testBit i = false := Nat.testBit_lt_two_pow (by omega)
    simp only [Nat.testBit_two_pow_self, this]; rfl
  · have : Nat.testBit (2^n) i = false := Nat.testBit_two_pow_of_ne (Ne.symm hi)
    simp only [this, Bool.false_or, Bool.xor_false]

/-- Full statement of the `mulc` part of C07; false, see `C07_mulc_refuted`. -/
def C07_mulc_statement : Prop :=
  ∀ x y, x < 2^63 → y < 2^63 →
    mulc (word x) (word y) = (word (Uint63.mulc x y).1, word (Uint63.mulc x y).2)

/-- The carry out of the low word is lost when both operands have bit 62 set. -/
theorem C07_mulc_refuted : ¬ C07_mulc_statement := by
  intro h
  have := h (2^62 + 1) (2^63 - 1) (by decide) (by decide)
  revert this; decide

theorem mulcAux_spec (x y : W) (hx : x.toNat < 2^63) (hy : y.toNat < 2^63) :
    mulcAux x y = (word (x.toNat * y.toNat / 2^63), word (x.toNat * y.toNat % 2^63)) := by
  have h := mulcAuxRaw_spec x y hx hy
  have hb : x.toNat * y.toNat ≤ (2^63 - 1) * (2^63 - 1) := Nat.mul_le_mul (by omega) (by omega)
  unfold mulcAux
  simp only
  rw [valLong_eq _ (x.toNat * y.toNat / 2^63) (by rw [h.1]; apply Nat.mod_eq_of_lt; omega),
    valLong_eq _ (x.toNat * y.toNat % 2^63) (by rw [h.2]; apply Nat.mod_eq_of_lt; omega)]

/-- When exactly the large-operand branch is wrong: `mulc` is right unless both operands are at least `2^62`,
`x ≡ 1 (mod 4)` and the low half of `x * (y - 2^62)` is at least `2^62`. Missing for C07: those inputs. -/
theorem C07_mulc_partial {x y : Nat} (hx : x < 2^63) (hy : y < 2^63)
    (hc : x < 2^62 ∨ y < 2^62 ∨ x % 4 ≠ 1 ∨ x * (y - 2^62) % 2^63 < 2^62) :
    mulc (word x) (word y) = (word (Uint63.mulc x y).1, word (Uint63.mulc x y).2) := by
  have ex := ulongVal_word hx
  have ey := ulongVal_word hy
  unfold mulc Uint63.mulc B
  simp only
  generalize ulongVal (word x) = u at *
  generalize ulongVal (word y) = v at *
  have s62 : ∀ w : W, w.toNat < 2^63 → (w >>> 62 = 0 ↔ w.toNat < 2^62) := by
    intro w hw
    rw [← BitVec.toNat_inj, BitVec.toNat_ushiftRight, Nat.shiftRight_eq_div_pow]
    show _ = 0 ↔ _
    omega
  simp only [s62 u (by omega), s62 v (by omega)]
  by_cases hb : u.toNat < 2^62 ∨ v.toNat < 2^62
  · rw [if_pos hb, mulcAux_spec u v (by omega) (by omega), ex, ey]
  · rw [if_neg hb]
    have hyl : (v ^^^ (1 <<< 62 : W)).toNat = y - 2^62 := by
      rw [BitVec.toNat_xor]
      have : (1 <<< 62 : W).toNat = 2^62 := by decide
      rw [this, ey]
      exact nat_xor_two_pow (by omega) (by omega)
    have hspec := mulcAux_spec u (v ^^^ (1 <<< 62 : W)) (by omega) (by omega)
    rw [hspec, hyl, ex]
    have hPb : x * (y - 2^62) ≤ (2^63 - 1) * (2^62 - 1) := Nat.mul_le_mul (by omega) (by omega)
    have hxy : x * y = x * (y - 2^62) + x * 2^62 := by
      rw [← Nat.mul_add]; congr 1; omega
    rw [hxy]
    generalize x * (y - 2^62) = P at *
    simp only
    have eh := ulongVal_word (n := P / 2^63) (by omega)
    have el := ulongVal_word (n := P % 2^63) (by omega)
    generalize ulongVal (word (P / 2^63)) = h at *
    generalize ulongVal (word (P % 2^63)) = l at *
    have es : (u <<< 62).toNat = (x % 4) * 2^62 := by
      rw [BitVec.toNat_shiftLeft, Nat.shiftLeft_eq, ex]; omega
    have eh1 : (u >>> 1).toNat = x / 2 := by
      rw [BitVec.toNat_ushiftRight, Nat.shiftRight_eq_div_pow, ex]
    generalize u <<< 62 = s at *
    generalize u >>> 1 = u1 at *
    have e1 : (1 : W).toNat = 1 := rfl
    have el2 : (l + s).toNat = (l.toNat + s.toNat) % 2^64 := BitVec.toNat_add ..
    have ehp : (h + 1).toNat = h.toNat + 1 := by rw [BitVec.toNat_add, e1]; omega
    simp only [BitVec.lt_def]
    generalize l + s = l2 at *
    have g2 : valLong l2 = word ((P + x * 2^62) % 2^63) := valLong_eq _ _ (by omega)
    rw [g2]
    by_cases hlt : l2.toNat < l.toNat
    · rw [if_pos hlt, valLong_eq _ ((P + x * 2^62) / 2^63) (by rw [BitVec.toNat_add, ehp]; omega)]
    · rw [if_neg hlt, valLong_eq _ ((P + x * 2^62) / 2^63) (by rw [BitVec.toNat_add]; omega)]

example : mulc (word (2^62 + 3)) (word (2^63 - 1)) =
    (word ((2^62 + 3) * (2^63 - 1) / 2^63), word ((2^62 + 3) * (2^63 - 1) % 2^63)) :=
  C07_mulc_partial (by decide) (by decide) (by decide)

/-! ## C07: division -/

theorem C07_diveucl {x y : Nat} (hx : x < 2^63) (hy : y < 2^63) :
    diveucl (word x) (word y) = some (word (Uint63.diveucl x y).1, word (Uint63.diveucl x y).2) := by
  have ex := ulongVal_word hx
  have ey := ulongVal_word hy
  unfold diveucl Uint63.diveucl
  simp only [ulongVal_word_eq_zero hy]
  by_cases h : y = 0
  · subst h
    simp only [if_true, Nat.div_zero, Nat.mod_zero, Option.some.injEq, Prod.mk.injEq]
    exact ⟨by decide, valLong_eq _ _ (by rw [ex]; omega)⟩
  · have h' : ¬ ulongVal (word y) = 0 := fun e => h ((ulongVal_word_eq_zero hy).1 e)
    simp only [if_neg h, udiv?, umod?, if_neg h', Option.bind_eq_bind, Option.bind_some, Option.some.injEq,
      Prod.mk.injEq]
    constructor
    · apply valLong_eq
      show ((ulongVal (word x)) / (ulongVal (word y))).toNat % _ = _
      rw [BitVec.toNat_udiv, ex, ey]
      exact Nat.mod_eq_of_lt (lt_of_le_of_lt (Nat.div_le_self x y) hx)
    · apply valLong_eq
      show ((ulongVal (word x)) % (ulongVal (word y))).toNat % _ = _
      rw [BitVec.toNat_umod, ex, ey]
      exact Nat.mod_eq_of_lt (lt_of_le_of_lt (Nat.mod_le x y) hx)

/-- One step of the long-division loop. The current remainder is `nh`, `nl` holds the unread bits left aligned. -/
theorem divStep_spec (y : W) (s : DivSt) (hy : y.toNat < 2^63) (hnh : s.nh.toNat < y.toNat)
    (hnl : s.nl.toNat < 2^63) (hq : s.q.toNat < 2^63) :
    let t := divStep y s
    let b := s.nl.toNat / 2^62
    t.nh.toNat < y.toNat ∧ t.nl.toNat = (s.nl.toNat * 2) % 2^63 ∧
    ∃ d, d ≤ 1 ∧ 2 * s.nh.toNat + b = d * y.toNat + t.nh.toNat ∧ t.q.toNat = 2 * s.q.toNat + d := by
  have en : ((s.nh <<< 1) ||| (s.nl >>> 62)).toNat = 2 * s.nh.toNat + s.nl.toNat / 2^62 := by
    rw [BitVec.toNat_or, BitVec.toNat_shiftLeft, Nat.shiftLeft_eq, BitVec.toNat_ushiftRight,
      Nat.shiftRight_eq_div_pow]
    have : s.nh.toNat * 2^1 % 2^64 = s.nh.toNat * 2^1 := Nat.mod_eq_of_lt (by omega)
    rw [this, Nat.or_comm, nat_or_eq_add (by omega)]; omega
  have el : ((s.nl <<< 1) &&& maxuint63).toNat = (s.nl.toNat * 2) % 2^63 := by
    rw [toNat_and_maxuint63, BitVec.toNat_shiftLeft, Nat.shiftLeft_eq]; omega
  have eq : (s.q <<< 1).toNat = 2 * s.q.toNat := by
    rw [BitVec.toNat_shiftLeft, Nat.shiftLeft_eq]; omega
  have eq1 : ((s.q <<< 1) ||| 1).toNat = 2 * s.q.toNat + 1 := by
    rw [BitVec.toNat_or, eq, Nat.or_comm, Nat.mul_comm]
    have := nat_or_eq_add (a := 1) (b := s.q.toNat) (k := 1) (by decide)
    rw [pow_one] at this
    show 1 ||| _ = _
    rw [this]; omega
  simp only [divStep, BitVec.le_def, en]
  generalize (s.nh <<< 1) ||| (s.nl >>> 62) = nh at *
  split
  · rename_i h
    have : (nh - y).toNat = nh.toNat - y.toNat := by rw [BitVec.toNat_sub]; omega
    refine ⟨by simp only [this]; omega, el, 1, le_refl _, by simp only [this]; omega, eq1⟩
  · rename_i h
    refine ⟨?_, el, 0, by omega, ?_, by simp only [eq]; omega⟩ <;> simp only <;> omega

theorem divLoop_spec (y : W) (hy : y.toNat < 2^63) (n : Nat) (hn : n ≤ 63) :
    ∀ s : DivSt, s.nh.toNat < y.toNat → s.nl.toNat < 2^63 → 2^(63-n) ∣ s.nl.toNat → s.q.toNat < 2^(63 - n) →
      let t := divLoop y n s
      t.nh.toNat < y.toNat ∧
      (s.q.toNat * 2^n * y.toNat + (s.nh.toNat * 2^n + s.nl.toNat / 2^(63-n)) = t.q.toNat * y.toNat + t.nh.toNat) ∧
      t.q.toNat < 2^63 := by
  induction n with
  | zero =>
    intro s h1 h2 h3 h4
    refine ⟨h1, ?_, h4⟩
    have h5 : s.nl.toNat / 2^63 = 0 := Nat.div_eq_of_lt h2
    simp only [divLoop, pow_zero, Nat.mul_one, Nat.sub_zero, h5, Nat.add_zero]
  | succ n ih =>
    intro s h1 h2 h3 h4
    have hq63 : s.q.toNat < 2^63 := lt_of_lt_of_le h4 (Nat.pow_le_pow_right (by decide) (by omega))
    obtain ⟨c1, c2, d, hd, c3, c4⟩ := divStep_spec y s hy h1 h2 hq63
    generalize ht : divStep y s = t at *
    have hp : (2:Nat)^(63-n) = 2 * 2^(63-(n+1)) := by
      rw [← pow_succ']; congr 1; omega
    have hq' : t.q.toNat < 2^(63-n) := by rw [c4, hp]; omega
    have hdv : 2^(63-n) ∣ t.nl.toNat := by
      rw [c2, hp]
      apply (Nat.dvd_mod_iff _).2
      · rw [Nat.mul_comm]; exact Nat.mul_dvd_mul_right h3 2
      · rw [← hp]; exact Nat.pow_dvd_pow 2 (by omega)
    have hnl' : t.nl.toNat < 2^63 := by rw [c2]; exact Nat.mod_lt _ (by decide)
    obtain ⟨r1, r2, r3⟩ := ih (by omega) t c1 hnl' hdv hq'
    have hloop : divLoop y (n+1) s = divLoop y n t := by rw [divLoop, ht]
    simp only [hloop]
    refine ⟨r1, ?_, r3⟩
    rw [← r2, c4, c2]
    -- split the top bit of nl
    have hb : s.nl.toNat / 2^(63-(n+1)) = (s.nl.toNat / 2^62) * 2^n + (s.nl.toNat * 2 % 2^63) / 2^(63-n) := by
      generalize s.nl.toNat = L at *
      have hm : L * 2 % 2^63 = 2 * (L % 2^62) := by omega
      rw [hm, hp, Nat.mul_div_mul_left _ _ (by decide : 0 < 2)]
      have hL : L = 2^(63-(n+1)) * ((L / 2^62) * 2^n) + L % 2^62 := by
        have : (2:Nat)^(63-(n+1)) * ((L / 2^62) * 2^n) = (L/2^62) * 2^62 := by
          rw [Nat.mul_comm, Nat.mul_assoc, ← pow_add]; congr 2; omega
        rw [this]; omega
      conv_lhs => rw [hL]
      rw [Nat.mul_add_div (by positivity)]
    rw [hb]
    have hring : s.q.toNat * 2^(n+1) * y.toNat + (s.nh.toNat * 2^(n+1) +
        (s.nl.toNat / 2^62 * 2^n + s.nl.toNat * 2 % 2^63 / 2^(63-n)))
        = s.q.toNat * 2^(n+1) * y.toNat + (2 * s.nh.toNat + s.nl.toNat/2^62) * 2^n + s.nl.toNat * 2 % 2^63 / 2^(63-n) := by
      rw [pow_succ]; ring
    rw [hring, c3, pow_succ]; ring

theorem C07_diveucl21 {xh xl y : Nat} (hxh : xh < 2^63) (hxl : xl < 2^63) (hy : y < 2^63) :
    diveucl21 (word xh) (word xl) (word y) =
      (word (Uint63.diveucl21 xh xl y).1, word (Uint63.diveucl21 xh xl y).2) := by
  have eh := ulongVal_word hxh
  have el := ulongVal_word hxl
  have ey := ulongVal_word hy
  unfold diveucl21 Uint63.diveucl21
  simp only [BitVec.le_def]
  generalize ulongVal (word xh) = H at *
  generalize ulongVal (word xl) = L at *
  generalize ulongVal (word y) = Y at *
  by_cases h : xh < y
  · rw [if_neg (by omega), if_pos h]
    have hH : (H &&& maxuint63).toNat = xh := by rw [toNat_and_maxuint63]; omega
    have hL : (L &&& maxuint63).toNat = xl := by rw [toNat_and_maxuint63]; omega
    obtain ⟨r1, r2, r3⟩ := divLoop_spec Y (by omega) 63 (le_refl _) ⟨H &&& maxuint63, L &&& maxuint63, 0⟩
      (by simp only [hH]; omega) (by simp only [hL]; omega) (by simp) (by simp)
    simp only [hH, hL] at r1 r2 r3
    unfold diveucl21Long B
    simp only
    generalize divLoop Y 63 ⟨H &&& maxuint63, L &&& maxuint63, 0⟩ = t at *
    have z0 : (0:W).toNat = 0 := rfl
    rw [z0, Nat.zero_mul, Nat.zero_mul, Nat.zero_add, Nat.sub_self, pow_zero, Nat.div_one, ey] at r2
    rw [ey] at r1
    rw [r2]
    have hm : (t.nh &&& 18446744073709551615) = t.nh := by
      apply BitVec.eq_of_toNat_eq
      rw [toNat_and_mask t.nh _ 64 0 (by decide)]
      simp only [pow_zero, Nat.div_one, Nat.mul_one]
      omega
    rw [hm]
    congr 1
    · apply valLong_eq
      rw [Nat.mul_comm, Nat.mul_add_div (by omega), Nat.div_eq_of_lt r1]; omega
    · apply valLong_eq
      rw [Nat.mul_comm, Nat.mul_add_mod, Nat.mod_eq_of_lt r1]; omega
  · rw [if_pos (by omega), if_neg h]
    rfl

theorem C07_addmuldiv {p x y : Nat} (hp : p < 2^63) (hx : x < 2^63) (hy : y < 2^63) :
    addmuldiv (word p) (word x) (word y) = some (word (Uint63.addmuldiv p x y)) := by
  have ep := ulongVal_word hp
  have ex := ulongVal_word hx
  have ey := ulongVal_word hy
  unfold addmuldiv Uint63.addmuldiv
  simp only [BitVec.lt_def]
  generalize ulongVal (word p) = P at *
  generalize ulongVal (word x) = X at *
  generalize ulongVal (word y) = Y at *
  have e63 : (63 : W).toNat = 63 := rfl
  by_cases h : p ≤ 63
  · rw [if_neg (by omega), if_pos h]
    have es : (63 - P).toNat = 63 - p := by rw [BitVec.toNat_sub, e63]; omega
    simp only [shl?, shr?, ep, es]
    rw [if_pos (by omega), if_pos (by omega)]
    simp only [Option.bind_eq_bind, Option.bind_some, Option.some.injEq]
    apply valLong_eq
    rw [BitVec.toNat_or, toNat_and_maxuint63, BitVec.toNat_shiftLeft, Nat.shiftLeft_eq,
      BitVec.toNat_ushiftRight, Nat.shiftRight_eq_div_pow, ex, ey]
    unfold B
    have hsp : (2:Nat)^63 = 2^(63-p) * 2^p := by rw [← pow_add]; congr 1; omega
    have e1 : x * 2^p % 2^64 % 2^63 = (x % 2^(63-p)) * 2^p := by
      rw [show x * 2^p % 2^64 % 2^63 = x * 2^p % 2^63 by omega, hsp, Nat.mul_mod_mul_right]
    have hy2 : y / 2^(63-p) < 2^p := by
      rw [Nat.div_lt_iff_lt_mul (by positivity), Nat.mul_comm, ← hsp]; exact hy
    rw [e1, Nat.or_comm, nat_or_eq_add hy2]
    have e2 : (x * 2^p + y / 2^(63-p)) % 2^63 = (x % 2^(63-p)) * 2^p + y / 2^(63-p) := by
      have hlt : (x % 2^(63-p)) * 2^p + y / 2^(63-p) < 2^63 := by
        have : x % 2^(63-p) + 1 ≤ 2^(63-p) := Nat.mod_lt _ (by positivity)
        calc (x % 2^(63-p)) * 2^p + y / 2^(63-p) < (x % 2^(63-p)) * 2^p + 2^p := by omega
          _ = (x % 2^(63-p) + 1) * 2^p := by ring
          _ ≤ 2^(63-p) * 2^p := Nat.mul_le_mul_right _ this
          _ = 2^63 := hsp.symm
      rw [Nat.add_mod, hsp, Nat.mul_mod_mul_right, ← hsp,
        Nat.mod_eq_of_lt (show y / 2^(63-p) < 2^63 from lt_of_le_of_lt (Nat.div_le_self _ _) hy),
        Nat.mod_eq_of_lt hlt]
    rw [e2, Nat.add_comm]
    rw [Nat.mod_eq_of_lt]
    rw [← e2]; exact Nat.mod_lt _ (by decide)
  · rw [if_pos (by omega), if_neg h]
    rfl

example : diveucl21 (word 1) (word 0) (word 2) = (word (2^62), word 0) :=
  C07_diveucl21 (by decide) (by decide) (by decide)
example : diveucl (word 17) (word 5) = some (word 3, word 2) := C07_diveucl (by decide) (by decide)
example : addmuldiv (word 1) (word 3) (word (2^62)) = some (word 7) :=
  C07_addmuldiv (by decide) (by decide) (by decide)

end Int63
