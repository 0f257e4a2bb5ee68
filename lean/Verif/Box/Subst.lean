import Verif.Box.Model
import Verif.Src.LinkBack

/-!
# Lifting and substitution in LambdaBoxMut
-/

namespace Box

open Mut (inst insts instB instD instl instD_length)

variable {D : Mut.Name → Prop}

@[simp] theorem liftD_len (k ds) : (liftD k ds).len = ds.len := by
  induction ds using Mut.Defs.ind with
  | h0 => rfl
  | h1 e es ih => simp [liftD, Mut.Defs.len, ih]

attribute [local simp] Mut.instD_length

mutual
theorem lift_closed : ∀ (t : Mut.Term) {i k : Nat}, t.crct D i → i ≤ k → lift k t = t
  | .rel j, i, k, h, hk => by simp only [Mut.Term.crct] at h; simp only [lift]; rw [if_pos (by omega)]
  | .proof, _, _, _, _ => rfl
  | .lam t, i, k, h, hk => by simp only [Mut.Term.crct] at h; simp only [lift]; rw [lift_closed t h (by omega)]
  | .letin t u, i, k, h, hk => by
    simp only [Mut.Term.crct] at h; simp only [lift]; rw [lift_closed t h.1 hk, lift_closed u h.2 (by omega)]
  | .app t u, i, k, h, hk => by
    simp only [Mut.Term.crct] at h; simp only [lift]; rw [lift_closed t h.1 hk, lift_closed u h.2 hk]
  | .const c, _, _, _, _ => rfl
  | .con i m ts, _, k, h, hk => by simp only [Mut.Term.crct] at h; simp only [lift]; rw [lifts_closed ts h hk]
  | .case i t bs, _, k, h, hk => by
    simp only [Mut.Term.crct] at h; simp only [lift]; rw [lift_closed t h.1 hk, liftB_closed bs h.2 hk]
  | .fix ds m, i, k, h, hk => by simp only [Mut.Term.crct] at h; simp only [lift]; rw [liftD_closed ds h.2 (by omega)]
  | .prim _, _, _, _, _ => rfl
  | .wrong, _, _, _, _ => rfl
theorem lifts_closed : ∀ (t : Mut.Terms) {i k : Nat}, t.crct D i → i ≤ k → lifts k t = t
  | .nil, _, _, _, _ => rfl
  | .cons t ts, i, k, h, hk => by
    simp only [Mut.Terms.crct] at h; simp only [lifts]; rw [lift_closed t h.1 hk, lifts_closed ts h.2 hk]
theorem liftB_closed : ∀ (t : Mut.Brs) {i k : Nat}, t.crct D i → i ≤ k → liftB k t = t
  | .nil, _, _, _, _ => rfl
  | .cons m t ts, i, k, h, hk => by
    simp only [Mut.Brs.crct] at h; simp only [liftB]; rw [lift_closed t h.1 (by omega), liftB_closed ts h.2 hk]
theorem liftD_closed : ∀ (t : Mut.Defs) {i k : Nat}, t.crct D i → i ≤ k → liftD k t = t
  | .nil, _, _, _, _ => rfl
  | .cons t ts, i, k, h, hk => by
    simp only [Mut.Defs.crct] at h; simp only [liftD]; rw [lift_closed t h.1 hk, liftD_closed ts h.2.2 hk]
end

mutual
theorem inst_closed (a : Mut.Term) : ∀ (t : Mut.Term) {i k : Nat}, t.crct D i → i ≤ k → inst a k t = t
  | .rel j, i, k, h, hk => by
    simp only [Mut.Term.crct] at h; simp only [inst]; rw [if_neg (by omega), if_pos (by omega)]
  | .proof, _, _, _, _ => rfl
  | .lam t, i, k, h, hk => by simp only [Mut.Term.crct] at h; simp only [inst]; rw [inst_closed a t h (by omega)]
  | .letin t u, i, k, h, hk => by
    simp only [Mut.Term.crct] at h; simp only [inst]; rw [inst_closed a t h.1 hk, inst_closed a u h.2 (by omega)]
  | .app t u, i, k, h, hk => by
    simp only [Mut.Term.crct] at h; simp only [inst]; rw [inst_closed a t h.1 hk, inst_closed a u h.2 hk]
  | .const c, _, _, _, _ => rfl
  | .con i m ts, _, k, h, hk => by simp only [Mut.Term.crct] at h; simp only [inst]; rw [insts_closed a ts h hk]
  | .case i t bs, _, k, h, hk => by
    simp only [Mut.Term.crct] at h; simp only [inst]; rw [inst_closed a t h.1 hk, instB_closed a bs h.2 hk]
  | .fix ds m, i, k, h, hk => by simp only [Mut.Term.crct] at h; simp only [inst]; rw [instD_closed a ds h.2 (by omega)]
  | .prim _, _, _, _, _ => rfl
  | .wrong, _, _, _, _ => rfl
theorem insts_closed (a : Mut.Term) : ∀ (t : Mut.Terms) {i k : Nat}, t.crct D i → i ≤ k → insts a k t = t
  | .nil, _, _, _, _ => rfl
  | .cons t ts, i, k, h, hk => by
    simp only [Mut.Terms.crct] at h; simp only [insts]; rw [inst_closed a t h.1 hk, insts_closed a ts h.2 hk]
theorem instB_closed (a : Mut.Term) : ∀ (t : Mut.Brs) {i k : Nat}, t.crct D i → i ≤ k → instB a k t = t
  | .nil, _, _, _, _ => rfl
  | .cons m t ts, i, k, h, hk => by
    simp only [Mut.Brs.crct] at h; simp only [instB]; rw [inst_closed a t h.1 (by omega), instB_closed a ts h.2 hk]
theorem instD_closed (a : Mut.Term) : ∀ (t : Mut.Defs) {i k : Nat}, t.crct D i → i ≤ k → instD a k t = t
  | .nil, _, _, _, _ => rfl
  | .cons t ts, i, k, h, hk => by
    simp only [Mut.Defs.crct] at h; simp only [instD]; rw [inst_closed a t h.1 hk, instD_closed a ts h.2.2 hk]
end

mutual
/-- Lifting then substituting above commutes, for a closed substituted term. -/
theorem inst_lift {a : Mut.Term} (ha : a.crct D 0) : ∀ (t : Mut.Term) {j k : Nat}, j ≤ k →
    inst a (k + 1) (lift j t) = lift j (inst a k t)
  | .rel m, j, k, hk => by
    simp only [lift, inst]
    by_cases h1 : k = m
    · subst h1; rw [if_pos (by split <;> omega), if_pos rfl, lift_closed a ha (by omega)]
    · by_cases h2 : m < j
      · rw [if_pos h2, if_neg (by omega), if_pos (by omega), if_neg h1, if_pos (by omega)]; simp [lift, h2]
      · rw [if_neg h2, if_neg (by omega), if_neg h1]
        by_cases h3 : m < k
        · rw [if_pos (by omega), if_pos h3]; simp [lift, h2]
        · rw [if_neg (by omega), if_neg h3]; simp only [lift]; rw [if_neg (by omega)]; congr 1; omega
  | .proof, _, _, _ => rfl
  | .lam t, j, k, h => by simp only [lift, inst]; rw [inst_lift ha t (by omega)]
  | .letin t u, j, k, h => by simp only [lift, inst]; rw [inst_lift ha t h, inst_lift ha u (by omega)]
  | .app t u, j, k, h => by simp only [lift, inst]; rw [inst_lift ha t h, inst_lift ha u h]
  | .const c, _, _, _ => rfl
  | .con i m ts, j, k, h => by simp only [lift, inst]; rw [insts_lifts ha ts h]
  | .case i t bs, j, k, h => by simp only [lift, inst]; rw [inst_lift ha t h, instB_liftB ha bs h]
  | .fix ds m, j, k, h => by
    simp only [lift, inst, liftD_len, Mut.instD_length]
    rw [show k + 1 + ds.len = (k + ds.len) + 1 by omega, instD_liftD ha ds (by omega)]
  | .prim _, _, _, _ => rfl
  | .wrong, _, _, _ => rfl
theorem insts_lifts {a : Mut.Term} (ha : a.crct D 0) : ∀ (t : Mut.Terms) {j k : Nat}, j ≤ k →
    insts a (k + 1) (lifts j t) = lifts j (insts a k t)
  | .nil, _, _, _ => rfl
  | .cons t ts, j, k, h => by simp only [lifts, insts]; rw [inst_lift ha t h, insts_lifts ha ts h]
theorem instB_liftB {a : Mut.Term} (ha : a.crct D 0) : ∀ (t : Mut.Brs) {j k : Nat}, j ≤ k →
    instB a (k + 1) (liftB j t) = liftB j (instB a k t)
  | .nil, _, _, _ => rfl
  | .cons m t ts, j, k, h => by
    simp only [liftB, instB]
    rw [show m + (k + 1) = (m + k) + 1 by omega, inst_lift ha t (by omega), instB_liftB ha ts h]
theorem instD_liftD {a : Mut.Term} (ha : a.crct D 0) : ∀ (t : Mut.Defs) {j k : Nat}, j ≤ k →
    instD a (k + 1) (liftD j t) = liftD j (instD a k t)
  | .nil, _, _, _ => rfl
  | .cons t ts, j, k, h => by simp only [liftD, instD]; rw [inst_lift ha t h, instD_liftD ha ts h]
end

mutual
/-- Substituting for the variable a lift has made room for gives the term back. -/
theorem inst_lift_same (a : Mut.Term) : ∀ (t : Mut.Term) (k : Nat), inst a k (lift k t) = t
  | .rel m, k => by
    simp only [lift, inst]
    by_cases h : m < k
    · rw [if_pos h, if_neg (by omega), if_pos h]
    · rw [if_neg h, if_neg (by omega), if_neg (by omega)]; rfl
  | .proof, _ => rfl
  | .lam t, k => by simp only [lift, inst]; rw [inst_lift_same a t]
  | .letin t u, k => by simp only [lift, inst]; rw [inst_lift_same a t, inst_lift_same a u]
  | .app t u, k => by simp only [lift, inst]; rw [inst_lift_same a t, inst_lift_same a u]
  | .const c, _ => rfl
  | .con i m ts, k => by simp only [lift, inst]; rw [insts_lifts_same a ts]
  | .case i t bs, k => by simp only [lift, inst]; rw [inst_lift_same a t, instB_liftB_same a bs]
  | .fix ds m, k => by simp only [lift, inst, liftD_len]; rw [instD_liftD_same a ds]
  | .prim _, _ => rfl
  | .wrong, _ => rfl
theorem insts_lifts_same (a : Mut.Term) : ∀ (t : Mut.Terms) (k : Nat), insts a k (lifts k t) = t
  | .nil, _ => rfl
  | .cons t ts, k => by simp only [lifts, insts]; rw [inst_lift_same a t, insts_lifts_same a ts]
theorem instB_liftB_same (a : Mut.Term) : ∀ (t : Mut.Brs) (k : Nat), instB a k (liftB k t) = t
  | .nil, _ => rfl
  | .cons m t ts, k => by simp only [liftB, instB]; rw [inst_lift_same a t, instB_liftB_same a ts]
theorem instD_liftD_same (a : Mut.Term) : ∀ (t : Mut.Defs) (k : Nat), instD a k (liftD k t) = t
  | .nil, _ => rfl
  | .cons t ts, k => by simp only [liftD, instD]; rw [inst_lift_same a t, instD_liftD_same a ts]
end

mutual
theorem lift_crct : ∀ (t : Mut.Term) {j i : Nat}, t.crct D i → (lift j t).crct D (i + 1)
  | .rel m, j, i, h => by simp only [Mut.Term.crct, lift] at h ⊢; split <;> omega
  | .proof, _, _, _ => by simp [lift, Mut.Term.crct]
  | .lam t, j, i, h => by
    simp only [Mut.Term.crct, lift] at h ⊢; have := lift_crct t (j := j + 1) h; rwa [Nat.add_assoc] at this
  | .letin t u, j, i, h => by
    simp only [Mut.Term.crct, lift] at h ⊢
    have := lift_crct u (j := j + 1) h.2; rw [Nat.add_assoc] at this; exact ⟨lift_crct t h.1, this⟩
  | .app t u, j, i, h => by simp only [Mut.Term.crct, lift] at h ⊢; exact ⟨lift_crct t h.1, lift_crct u h.2⟩
  | .const c, _, _, h => by simpa [lift, Mut.Term.crct] using h
  | .con i m ts, j, k, h => by simp only [Mut.Term.crct, lift] at h ⊢; exact lifts_crct ts h
  | .case i t bs, j, k, h => by simp only [Mut.Term.crct, lift] at h ⊢; exact ⟨lift_crct t h.1, liftB_crct bs h.2⟩
  | .fix ds m, j, k, h => by
    simp only [Mut.Term.crct, lift, liftD_len] at h ⊢
    have := liftD_crct ds (j := j + ds.len) h.2; rw [Nat.add_assoc] at this; exact ⟨h.1, this⟩
  | .prim _, _, _, _ => by simp [lift, Mut.Term.crct]
  | .wrong, _, _, h => by simp [Mut.Term.crct] at h
theorem lifts_crct : ∀ (t : Mut.Terms) {j i : Nat}, t.crct D i → (lifts j t).crct D (i + 1)
  | .nil, _, _, _ => by simp [lifts, Mut.Terms.crct]
  | .cons t ts, j, k, h => by simp only [Mut.Terms.crct, lifts] at h ⊢; exact ⟨lift_crct t h.1, lifts_crct ts h.2⟩
theorem liftB_crct : ∀ (t : Mut.Brs) {j i : Nat}, t.crct D i → (liftB j t).crct D (i + 1)
  | .nil, _, _, _ => by simp [liftB, Mut.Brs.crct]
  | .cons m t ts, j, k, h => by
    simp only [Mut.Brs.crct, liftB] at h ⊢
    have := lift_crct t (j := m + j) h.1; rw [Nat.add_assoc] at this; exact ⟨this, liftB_crct ts h.2⟩
theorem liftD_crct : ∀ (t : Mut.Defs) {j i : Nat}, t.crct D i → (liftD j t).crct D (i + 1)
  | .nil, _, _, _ => by simp [liftD, Mut.Defs.crct]
  | .cons t ts, j, k, h => by
    simp only [Mut.Defs.crct, liftD] at h ⊢
    refine ⟨lift_crct t h.1, ?_, liftD_crct ts h.2.2⟩
    obtain ⟨b, rfl⟩ := h.2.1; exact ⟨_, rfl⟩
end

mutual
/-- Two closed substitutions commute. -/
theorem inst_inst {a b : Mut.Term} (ha : a.crct D 0) (hb : b.crct D 0) : ∀ (t : Mut.Term) {n k : Nat}, n ≤ k →
    inst a k (inst b n t) = inst b n (inst a (k + 1) t)
  | .rel m, n, k, h => by
    simp only [inst]
    by_cases h1 : n = m
    · subst h1; rw [if_pos rfl, if_neg (by omega), if_pos (by omega)]
      simp only [inst, if_pos]; exact inst_closed a b hb (by omega)
    · rw [if_neg h1]
      by_cases h2 : m < n
      · rw [if_pos h2, if_neg (by omega), if_pos (by omega)]
        simp only [inst]; rw [if_neg (by omega), if_pos (by omega), if_neg h1, if_pos h2]
      · rw [if_neg h2]
        by_cases h3 : k + 1 = m
        · subst h3; rw [if_pos rfl, inst_closed b a ha (by omega)]; simp [inst]
        · rw [if_neg h3]
          by_cases h4 : m < k + 1
          · rw [if_pos h4]; simp only [inst]; rw [if_neg (by omega), if_pos (by omega), if_neg h1, if_neg h2]
          · rw [if_neg h4]; simp only [inst]; rw [if_neg (by omega), if_neg (by omega), if_neg (by omega), if_neg (by omega)]
  | .proof, _, _, _ => rfl
  | .lam t, n, k, h => by simp only [inst]; rw [inst_inst ha hb t (by omega)]
  | .letin t u, n, k, h => by simp only [inst]; rw [inst_inst ha hb t h, inst_inst ha hb u (by omega)]
  | .app t u, n, k, h => by simp only [inst]; rw [inst_inst ha hb t h, inst_inst ha hb u h]
  | .const c, _, _, _ => rfl
  | .con i m ts, n, k, h => by simp only [inst]; rw [insts_insts ha hb ts h]
  | .case i t bs, n, k, h => by simp only [inst]; rw [inst_inst ha hb t h, instB_instB ha hb bs h]
  | .fix ds m, n, k, h => by
    simp only [inst, Mut.instD_length]
    rw [show k + 1 + ds.len = (k + ds.len) + 1 by omega, instD_instD ha hb ds (by omega)]
  | .prim _, _, _, _ => rfl
  | .wrong, _, _, _ => rfl
theorem insts_insts {a b : Mut.Term} (ha : a.crct D 0) (hb : b.crct D 0) : ∀ (t : Mut.Terms) {n k : Nat}, n ≤ k →
    insts a k (insts b n t) = insts b n (insts a (k + 1) t)
  | .nil, _, _, _ => rfl
  | .cons t ts, n, k, h => by simp only [insts]; rw [inst_inst ha hb t h, insts_insts ha hb ts h]
theorem instB_instB {a b : Mut.Term} (ha : a.crct D 0) (hb : b.crct D 0) : ∀ (t : Mut.Brs) {n k : Nat}, n ≤ k →
    instB a k (instB b n t) = instB b n (instB a (k + 1) t)
  | .nil, _, _, _ => rfl
  | .cons m t ts, n, k, h => by
    simp only [instB]
    rw [show m + (k + 1) = (m + k) + 1 by omega, inst_inst ha hb t (by omega), instB_instB ha hb ts h]
theorem instD_instD {a b : Mut.Term} (ha : a.crct D 0) (hb : b.crct D 0) : ∀ (t : Mut.Defs) {n k : Nat}, n ≤ k →
    instD a k (instD b n t) = instD b n (instD a (k + 1) t)
  | .nil, _, _, _ => rfl
  | .cons t ts, n, k, h => by simp only [instD]; rw [inst_inst ha hb t h, instD_instD ha hb ts h]
end

theorem inst_instl {a : Mut.Term} (ha : a.crct D 0) : ∀ (s : Mut.Terms), s.crct D 0 → ∀ (k : Nat) (t : Mut.Term),
    inst a k (instl s 0 t) = instl s 0 (inst a (s.len + k) t) := by
  intro s
  induction s using Mut.Terms.ind with
  | h0 => intro _ k t; simp [instl, Mut.Terms.len]
  | h1 b s ih =>
    intro hs k t
    simp only [Mut.Terms.crct] at hs
    simp only [instl, Mut.Terms.len, Nat.add_zero]
    rw [ih hs.2, inst_inst ha hs.1 t (by omega), show s.len + k + 1 = s.len + 1 + k by omega]

end Box
