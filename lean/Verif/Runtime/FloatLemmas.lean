import Verif.Runtime.FloatModel
import Mathlib.Order.Monotone.Basic
import Mathlib.Order.Basic

/-! Helper lemmas for the float primitives: the order of doubles is the order of their bit patterns. -/

namespace CFloat
open F64

/-- Magnitude of the pattern without its sign bit. -/
def magN (n : Nat) : Nat := if n / 2^52 = 0 then n % 2^52 else (2^52 + n % 2^52) * 2^(n / 2^52 - 1)

theorem magN_succ (n : Nat) : magN n < magN (n + 1) := by
  unfold magN
  by_cases hm : n % 2^52 + 1 < 2^52
  · have h1 : (n+1) / 2^52 = n / 2^52 := by omega
    have h2 : (n+1) % 2^52 = n % 2^52 + 1 := by omega
    rw [h1, h2]
    by_cases h0 : n / 2^52 = 0
    · rw [if_pos h0, if_pos h0]; omega
    · rw [if_neg h0, if_neg h0]
      exact Nat.mul_lt_mul_of_pos_right (by omega) (Nat.pow_pos (by norm_num))
  · have h1 : (n+1) / 2^52 = n / 2^52 + 1 := by omega
    have h2 : (n+1) % 2^52 = 0 := by omega
    have h3 : n % 2^52 = 2^52 - 1 := by omega
    rw [h1, h2, h3]
    by_cases h0 : n / 2^52 = 0
    · rw [if_pos h0, h0]; norm_num
    · rw [if_neg h0, if_neg (by omega)]
      obtain ⟨k, hk⟩ : ∃ k, n / 2^52 = k + 1 := ⟨n / 2^52 - 1, by omega⟩
      rw [hk]
      have hp : 0 < 2^k := Nat.pow_pos (by norm_num)
      rw [Nat.add_sub_cancel, Nat.add_sub_cancel, pow_succ 2 k]
      generalize 2^k = q at hp
      omega

theorem magN_strictMono : StrictMono magN := strictMono_nat_of_lt_succ magN_succ

theorem magN_lt {a b : Nat} : magN a < magN b ↔ a < b := magN_strictMono.lt_iff_lt
theorem magN_inj {a b : Nat} : magN a = magN b ↔ a = b := magN_strictMono.injective.eq_iff
theorem magN_zero : magN 0 = 0 := by simp [magN]

/-- The pattern without its sign bit. -/
def low (u : Bits) : Nat := u.toNat % 2^63

theorem low_lt (u : Bits) : low u < 2^63 := Nat.mod_lt _ (by norm_num)

theorem expo_low (u : Bits) : expo u = low u / 2^52 := by unfold expo low; omega
theorem mant_low (u : Bits) : mant u = low u % 2^52 := by unfold mant low; omega
theorem magnitude_low (u : Bits) : magnitude u = magN (low u) := by
  unfold magnitude magN; rw [expo_low, mant_low]

/-- The pattern of `+∞`. -/
def infN : Nat := 2047 * 2^52

/-- Signed order key of a bit pattern. -/
def key (u : Bits) : Int := if negative u then -(low u : Int) else low u

theorem val_nan (u : Bits) : val u = .nan ↔ infN < low u := by
  unfold val; rw [expo_low, mant_low]
  have := low_lt u
  unfold infN
  by_cases h : low u / 2^52 = 2047
  · rw [if_pos h]
    by_cases h' : low u % 2^52 = 0
    · rw [if_pos h']; simp; omega
    · rw [if_neg h']; simp; omega
  · rw [if_neg h]; simp; omega

theorem val_inf (u : Bits) (h : low u = infN) : val u = .inf (negative u) := by
  unfold val; rw [expo_low, mant_low, if_pos (by unfold infN at h; omega), if_pos (by unfold infN at h; omega)]

theorem val_fin (u : Bits) (h : low u < infN) :
    val u = .fin (if negative u then -(magN (low u) : Int) else magN (low u)) := by
  unfold val; rw [expo_low, if_neg (by unfold infN at h; omega), magnitude_low]

theorem sgn_lt {n m : Nat} {a b : Bool} :
    ((if a then -(magN n : Int) else magN n) < (if b then -(magN m : Int) else magN m)) ↔
      ((if a then -(n : Int) else n) < (if b then -(m : Int) else m)) := by
  have h0 : ∀ k : Nat, 0 < magN k ↔ 0 < k := fun k => by
    have := magN_lt (a := 0) (b := k); rwa [magN_zero] at this
  have hn := h0 n
  have hm := h0 m
  have h1 := magN_lt (a := n) (b := m)
  have h2 := magN_lt (a := m) (b := n)
  cases a <;> cases b <;> simp only [if_true, Bool.false_eq_true, if_false] <;> omega

/-- IEEE order is the order of the keys. -/
theorem lt_key (u v : Bits) :
    (val u).lt (val v) ↔ low u ≤ infN ∧ low v ≤ infN ∧ key u < key v := by
  rcases lt_trichotomy (low u) infN with hu | hu | hu
  · rcases lt_trichotomy (low v) infN with hv | hv | hv
    · rw [val_fin u hu, val_fin v hv]
      unfold key
      simp only [FVal.lt, sgn_lt]
      exact ⟨fun h => ⟨by omega, by omega, h⟩, fun h => h.2.2⟩
    · rw [val_fin u hu, val_inf v hv]
      simp only [FVal.lt]
      unfold key
      rw [hv]
      cases negative v <;> cases negative u <;> simp <;> omega
    · rw [(val_nan v).2 hv, val_fin u hu]
      simp only [FVal.lt, false_iff]; omega
  · rcases lt_trichotomy (low v) infN with hv | hv | hv
    · rw [val_inf u hu, val_fin v hv]
      simp only [FVal.lt]
      unfold key
      rw [hu]
      cases negative v <;> cases negative u <;> simp <;> omega
    · rw [val_inf u hu, val_inf v hv]
      simp only [FVal.lt]
      unfold key
      rw [hu, hv]
      have : (0:Int) < infN := by norm_num [infN]
      cases negative v <;> cases negative u <;> simp
      omega
    · rw [(val_nan v).2 hv, val_inf u hu]
      simp only [FVal.lt, false_iff]; omega
  · rw [(val_nan u).2 hu]
    simp only [FVal.lt, false_iff]; omega

theorem sgn_inj {n m : Nat} {a b : Bool} :
    ((if a then -(magN n : Int) else magN n) = (if b then -(magN m : Int) else magN m)) ↔
      ((if a then -(n : Int) else n) = (if b then -(m : Int) else m)) := by
  have h1 := @sgn_lt n m a b
  have h2 := @sgn_lt m n b a
  omega

theorem eqv_key (u v : Bits) :
    (val u).eqv (val v) ↔ low u ≤ infN ∧ low v ≤ infN ∧ key u = key v := by
  rcases lt_trichotomy (low u) infN with hu | hu | hu
  · rcases lt_trichotomy (low v) infN with hv | hv | hv
    · rw [val_fin u hu, val_fin v hv]
      unfold key
      simp only [FVal.eqv, sgn_inj]
      exact ⟨fun h => ⟨by omega, by omega, h⟩, fun h => h.2.2⟩
    · rw [val_fin u hu, val_inf v hv]
      simp only [FVal.eqv, false_iff]
      unfold key
      rw [hv]
      cases negative v <;> cases negative u <;> simp <;> omega
    · rw [(val_nan v).2 hv, val_fin u hu]
      simp only [FVal.eqv, false_iff]; omega
  · rcases lt_trichotomy (low v) infN with hv | hv | hv
    · rw [val_inf u hu, val_fin v hv]
      simp only [FVal.eqv, false_iff]
      unfold key
      rw [hu]
      cases negative v <;> cases negative u <;> simp <;> omega
    · rw [val_inf u hu, val_inf v hv]
      simp only [FVal.eqv]
      unfold key
      rw [hu, hv]
      have : (0:Int) < infN := by norm_num [infN]
      cases negative v <;> cases negative u <;> simp <;> omega
    · rw [(val_nan v).2 hv, val_inf u hu]
      simp only [FVal.eqv, false_iff]; omega
  · rw [(val_nan u).2 hu]
    simp only [FVal.eqv, false_iff]; omega

theorem le_key (u v : Bits) :
    (val u).le (val v) ↔ low u ≤ infN ∧ low v ≤ infN ∧ key u ≤ key v := by
  unfold FVal.le
  rw [lt_key, eqv_key]
  omega

theorem key_nat (u : Bits) :
    (negative u = true ∧ 2^63 ≤ u.toNat ∧ low u = u.toNat - 2^63 ∧ key u = -(low u : Int)) ∨
    (negative u = false ∧ u.toNat < 2^63 ∧ low u = u.toNat ∧ key u = low u) := by
  have := u.isLt
  unfold key negative low
  by_cases h : 2^63 ≤ u.toNat
  · left; simp only [h, decide_true, if_true]; refine ⟨trivial, trivial, by omega, trivial⟩
  · right; simp only [h, decide_false, Bool.false_eq_true, if_false]
    refine ⟨trivial, by omega, by omega, trivial⟩

end CFloat
