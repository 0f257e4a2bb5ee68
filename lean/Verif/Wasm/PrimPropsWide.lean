import Verif.Wasm.PrimProps

/-! # C09 continued: carries, double-width multiplication and division -/

namespace Wasm
open Instr

section
variable {E : Env} {s : St} {p x y z X Y Z : Nat}

/-! ## Carries -/

theorem carry_ok {pre : List Instr} {t : Bool} {o1 o2 n : Nat} (h : Ready s p) (hn : n < 2 ^ 64)
    (ho1 : o1 < 2 ^ 32) (ho2 : o2 < 2 ^ 32) (hs : pre.all Instr.simple = true)
    (hpre : steps E pre ⟨s.mem, s.pages, s.globals, s.locals, s.stack⟩ =
      some ⟨s.mem, s.pages, setGlobal s.globals globTmp1 (.i64 n), s.locals, boolVal t :: s.stack⟩) :
    Computes E (pre ++ [ifte [.t32] (makeCarry o1 globTmp1) (makeCarry o2 globTmp1)]) s p
      fun m b tp v => ∃ w, IsBlock m b tp v (if t then o1 else o2) [w] ∧ IsInt m b tp w n := by
  have hsim : Sim s ⟨s.mem, s.pages, setGlobal s.globals globTmp1 (.i64 n), s.locals, []⟩ :=
    (Sim.refl s).global (by decide) _ _
  obtain ⟨s', h1, h2, h3, h4, h5⟩ := runs_makeCarry (E := E) (g := globTmp1) (ord := if t then o1 else o2) h hn
    (by cases t <;> assumption) hsim (setGlobal_same s.globals globTmp1 (.i64 n)) rfl
  refine ⟨{ s' with stack := .i32 (p + 8) :: s.stack }, _, _, Runs.steps hs hpre ?_, rfl,
    ⟨h3.1, h3.2, h3.3, h3.4, h3.5, h3.6, h3.7, h3.8, h3.9⟩, _, h4, h5⟩
  have := Runs.ite (E := E) (k := [.t32]) (a := makeCarry o1 globTmp1) (b := makeCarry o2 globTmp1) (is := [])
    (s := ⟨s.mem, s.pages, setGlobal s.globals globTmp1 (.i64 n), s.locals, boolVal t :: s.stack⟩)
    (c := if t then 1 else 0) (st := s.stack) rfl (s' := s') (o := .ok { s' with stack := .i32 (p + 8) :: s.stack }) ?_ ?_
  · exact this
  · have : (if (if t then 1 else 0) = 0 then makeCarry o2 globTmp1 else makeCarry o1 globTmp1) = makeCarry (if t then o1 else o2) globTmp1 := by
      cases t <;> rfl
    rw [this]
    exact h1
  · rw [h2]; exact Runs.nil _ _

theorem Computes.imp {is : List Instr} {Q Q' : Mem → Nat → Nat → Val → Prop} (h : Computes E is s p Q)
    (hQ : ∀ m b t v, Q m b t v → Q' m b t v) : Computes E is s p Q' := by
  obtain ⟨s', v, p', h1, h2, h3, h4⟩ := h
  exact ⟨s', v, p', h1, h2, h3, hQ _ _ _ _ h4⟩

theorem C09_addc (h : Ready s p) (hx : Arg s p x X) (hy : Arg s p y Y) :
    ∃ is, translatePrimop .addc [x, y] = some is ∧ Computes E is s p (IsCarry · · · · (Uint63.addc X Y)) := by
  have hX := hx.1; have hY := hy.1
  refine ⟨_, rfl, ?_⟩
  have := carry_ok (E := E) (pre := loadLocal x ++ (loadLocal y ++ (b64 .add :: (bitmask ++
    (globalSet globTmp1 :: globalGet globTmp1 :: (loadLocal x ++ [relop .t64 .ltU]))))))
    (o1 := c1Ord) (o2 := c0Ord) (n := (X + Y) % 2 ^ 64 % 2 ^ 63) (t := decide ((X + Y) % 2 ^ 64 % 2 ^ 63 < X)) h (by omega) (by decide) (by decide) rfl ?_
  · simp only [addCarryInstrs, List.cons_append, List.append_assoc, List.nil_append, Bool.false_eq_true, if_false] at this ⊢
    refine this.imp ?_
    intro m b t v ⟨w, h1, h2⟩
    unfold Uint63.addc Uint63.B
    by_cases hlt : X + Y < 2 ^ 63
    · rw [if_pos hlt]
      rw [show decide ((X + Y) % 2 ^ 64 % 2 ^ 63 < X) = false from decide_eq_false (by omega)] at h1
      rw [show (X + Y) % 2 ^ 64 % 2 ^ 63 = X + Y by omega] at h2
      exact ⟨w, h1, h2⟩
    · rw [if_neg hlt]
      rw [show decide ((X + Y) % 2 ^ 64 % 2 ^ 63 < X) = true from decide_eq_true (by omega)] at h1
      rw [show (X + Y) % 2 ^ 64 % 2 ^ 63 = X + Y - 2 ^ 63 by omega] at h2
      exact ⟨w, h1, h2⟩
  · rw [steps_loadLocal h hx, steps_loadLocal h hy, st_add64, bitmask, List.cons_append, st_c64, List.cons_append, List.nil_append, st_and64, and_maxuint63,
      st_gset, st_gget, setGlobal_same, steps_loadLocal h hx, st_rel64, st_nil]
    simp only [evalRel]

theorem C09_addcarryc (h : Ready s p) (hx : Arg s p x X) (hy : Arg s p y Y) :
    ∃ is, translatePrimop .addcarryc [x, y] = some is ∧ Computes E is s p (IsCarry · · · · (Uint63.addcarryc X Y)) := by
  have hX := hx.1; have hY := hy.1
  refine ⟨_, rfl, ?_⟩
  have e : ((X + Y) % 2 ^ 64 + 1) % 2 ^ 64 % 2 ^ 63 = (X + Y + 1) % 2 ^ 63 := by omega
  have := carry_ok (E := E) (pre := loadLocal x ++ (loadLocal y ++ (b64 .add :: c64 1 :: b64 .add :: (bitmask ++
    (globalSet globTmp1 :: globalGet globTmp1 :: (loadLocal x ++ [relop .t64 .leU]))))))
    (o1 := c1Ord) (o2 := c0Ord) (n := (X + Y + 1) % 2 ^ 63) (t := decide ((X + Y + 1) % 2 ^ 63 ≤ X)) h (by omega) (by decide) (by decide) rfl ?_
  · simp only [addCarryInstrs, List.cons_append, List.append_assoc, List.nil_append, if_true] at this ⊢
    refine this.imp ?_
    intro m b t v ⟨w, h1, h2⟩
    unfold Uint63.addcarryc Uint63.B
    by_cases hlt : X + Y + 1 < 2 ^ 63
    · rw [if_pos hlt]
      rw [show decide ((X + Y + 1) % 2 ^ 63 ≤ X) = false from decide_eq_false (by omega)] at h1
      rw [show (X + Y + 1) % 2 ^ 63 = X + Y + 1 by omega] at h2
      exact ⟨w, h1, h2⟩
    · rw [if_neg hlt]
      rw [show decide ((X + Y + 1) % 2 ^ 63 ≤ X) = true from decide_eq_true (by omega)] at h1
      rw [show (X + Y + 1) % 2 ^ 63 = X + Y + 1 - 2 ^ 63 by omega] at h2
      exact ⟨w, h1, h2⟩
  · rw [steps_loadLocal h hx, steps_loadLocal h hy, st_add64, st_c64, st_add64, bitmask, List.cons_append, st_c64, List.cons_append, List.nil_append, st_and64, and_maxuint63,
      st_gset, st_gget, setGlobal_same, steps_loadLocal h hx, st_rel64, st_nil]
    simp only [evalRel, e]

theorem C09_subc (h : Ready s p) (hx : Arg s p x X) (hy : Arg s p y Y) :
    ∃ is, translatePrimop .subc [x, y] = some is ∧ Computes E is s p (IsCarry · · · · (Uint63.subc X Y)) := by
  have hX := hx.1; have hY := hy.1
  refine ⟨_, rfl, ?_⟩
  have := carry_ok (E := E) (pre := loadLocal x ++ (loadLocal y ++ (b64 .sub :: (bitmask ++
    (globalSet globTmp1 :: (loadLocal y ++ (loadLocal x ++ [relop .t64 .leU])))))))
    (o1 := c0Ord) (o2 := c1Ord) (n := (X + 2 ^ 64 - Y) % 2 ^ 64 % 2 ^ 63) (t := decide (Y ≤ X)) h (by omega) (by decide) (by decide) rfl ?_
  · simp only [subCarryInstrs, List.cons_append, List.append_assoc, List.nil_append, Bool.false_eq_true, if_false] at this ⊢
    refine this.imp ?_
    intro m b t v ⟨w, h1, h2⟩
    unfold Uint63.subc Uint63.B
    by_cases hlt : Y ≤ X
    · rw [if_pos hlt]
      rw [decide_eq_true hlt] at h1
      rw [show (X + 2 ^ 64 - Y) % 2 ^ 64 % 2 ^ 63 = X - Y by omega] at h2
      exact ⟨w, h1, h2⟩
    · rw [if_neg hlt]
      rw [decide_eq_false hlt] at h1
      rw [show (X + 2 ^ 64 - Y) % 2 ^ 64 % 2 ^ 63 = X + 2 ^ 63 - Y by omega] at h2
      exact ⟨w, h1, h2⟩
  · rw [steps_loadLocal h hx, steps_loadLocal h hy, st_sub64, bitmask, List.cons_append, st_c64, List.cons_append, List.nil_append, st_and64, and_maxuint63,
      st_gset, steps_loadLocal h hy, steps_loadLocal h hx, st_rel64, st_nil]
    simp only [evalRel]

theorem C09_subcarryc (h : Ready s p) (hx : Arg s p x X) (hy : Arg s p y Y) :
    ∃ is, translatePrimop .subcarryc [x, y] = some is ∧ Computes E is s p (IsCarry · · · · (Uint63.subcarryc X Y)) := by
  have hX := hx.1; have hY := hy.1
  refine ⟨_, rfl, ?_⟩
  have e : ((X + 2 ^ 64 - Y) % 2 ^ 64 + 2 ^ 64 - 1) % 2 ^ 64 % 2 ^ 63 = (X + 2 ^ 64 - Y - 1) % 2 ^ 63 := by omega
  have := carry_ok (E := E) (pre := loadLocal x ++ (loadLocal y ++ (b64 .sub :: c64 1 :: b64 .sub :: (bitmask ++
    (globalSet globTmp1 :: (loadLocal y ++ (loadLocal x ++ [relop .t64 .ltU])))))))
    (o1 := c0Ord) (o2 := c1Ord) (n := (X + 2 ^ 64 - Y - 1) % 2 ^ 63) (t := decide (Y < X)) h (by omega) (by decide) (by decide) rfl ?_
  · simp only [subCarryInstrs, List.cons_append, List.append_assoc, List.nil_append, if_true] at this ⊢
    refine this.imp ?_
    intro m b t v ⟨w, h1, h2⟩
    unfold Uint63.subcarryc Uint63.B
    by_cases hlt : Y + 1 ≤ X
    · rw [if_pos hlt]
      rw [decide_eq_true (show Y < X from hlt)] at h1
      rw [show (X + 2 ^ 64 - Y - 1) % 2 ^ 63 = X - Y - 1 by omega] at h2
      exact ⟨w, h1, h2⟩
    · rw [if_neg hlt]
      rw [decide_eq_false (show ¬ Y < X from hlt)] at h1
      rw [show (X + 2 ^ 64 - Y - 1) % 2 ^ 63 = X + 2 ^ 63 - Y - 1 by omega] at h2
      exact ⟨w, h1, h2⟩
  · rw [steps_loadLocal h hx, steps_loadLocal h hy, st_sub64, st_c64, st_sub64, bitmask, List.cons_append, st_c64, List.cons_append, List.nil_append, st_and64, and_maxuint63,
      st_gset, steps_loadLocal h hy, steps_loadLocal h hx, st_rel64, st_nil]
    simp only [evalRel, e]

/-! ## Double-width multiplication -/

theorem steps_append (as bs : List Instr) (s : St) : steps E (as ++ bs) s = (steps E as s).bind (steps E bs) := by
  induction as generalizing s with
  | nil => rfl
  | cons i as ih =>
    rw [List.cons_append, steps, steps]
    cases step E i s with
    | none => rfl
    | some s1 => exact ih s1

theorem half_mod {a b : Nat} (hb : b < 2 ^ 32) : (a * 2 ^ 32 + b) % 2 ^ 32 = b := by omega
theorem half_div {a b : Nat} (hb : b < 2 ^ 32) : (a * 2 ^ 32 + b) / 2 ^ 32 = a := by omega
theorem half_shl (c : Nat) : c * 2 ^ 32 % 2 ^ 64 = c % 2 ^ 32 * 2 ^ 32 := by omega

/-- The arithmetic of `mulc_instrs`: schoolbook multiplication on 32-bit halves. -/
theorem mulc_arith (hX : X < 2 ^ 63) (hY : Y < 2 ^ 63) :
    let t1 := (X % 2 ^ 32) * (Y % 2 ^ 32) % 2 ^ 64
    let t2 := (X / 2 ^ 32) * (Y % 2 ^ 32) % 2 ^ 64
    let t3 := (X % 2 ^ 32) * (Y / 2 ^ 32) % 2 ^ 64
    let t4 := (X / 2 ^ 32) * (Y / 2 ^ 32) % 2 ^ 64
    let cross := ((t1 / 2 ^ 32 + t2 % 2 ^ 32) % 2 ^ 64 + t3) % 2 ^ 64
    let upper := ((t2 / 2 ^ 32 + cross / 2 ^ 32) % 2 ^ 64 + t4) % 2 ^ 64
    let lower := (cross * 2 ^ 32 % 2 ^ 64) ||| (t1 % 2 ^ 32)
    (upper * 2 ^ 1 % 2 ^ 64 + lower / 2 ^ 63) % 2 ^ 64 = X * Y / 2 ^ 63 ∧ lower % 2 ^ 63 = X * Y % 2 ^ 63 := by
  obtain ⟨xh, xl, rfl, hxl, hxh⟩ : ∃ xh xl, X = xh * 2 ^ 32 + xl ∧ xl < 2 ^ 32 ∧ xh < 2 ^ 31 :=
    ⟨X / 2 ^ 32, X % 2 ^ 32, by omega, by omega, by omega⟩
  obtain ⟨yh, yl, rfl, hyl, hyh⟩ : ∃ yh yl, Y = yh * 2 ^ 32 + yl ∧ yl < 2 ^ 32 ∧ yh < 2 ^ 31 :=
    ⟨Y / 2 ^ 32, Y % 2 ^ 32, by omega, by omega, by omega⟩
  have e1 := half_mod (a := xh) hxl
  have e2 := half_div (a := xh) hxl
  have e3 := half_mod (a := yh) hyl
  have e4 := half_div (a := yh) hyl
  have b1 : xl * yl ≤ (2 ^ 32 - 1) * (2 ^ 32 - 1) := Nat.mul_le_mul (by omega) (by omega)
  have b2 : xh * yl ≤ (2 ^ 31 - 1) * (2 ^ 32 - 1) := Nat.mul_le_mul (by omega) (by omega)
  have b3 : xl * yh ≤ (2 ^ 32 - 1) * (2 ^ 31 - 1) := Nat.mul_le_mul (by omega) (by omega)
  have b4 : xh * yh ≤ (2 ^ 31 - 1) * (2 ^ 31 - 1) := Nat.mul_le_mul (by omega) (by omega)
  have eprod : (xh * 2 ^ 32 + xl) * (yh * 2 ^ 32 + yl) = xh * yh * 2 ^ 64 + (xh * yl + xl * yh) * 2 ^ 32 + xl * yl := by ring
  simp only [e1, e2, e3, e4, eprod]
  generalize xl * yl = t1 at *
  generalize xh * yl = t2 at *
  generalize xl * yh = t3 at *
  generalize xh * yh = t4 at *
  have m1 : t1 % 2 ^ 64 = t1 := Nat.mod_eq_of_lt (by omega)
  have m2 : t2 % 2 ^ 64 = t2 := Nat.mod_eq_of_lt (by omega)
  have m3 : t3 % 2 ^ 64 = t3 := Nat.mod_eq_of_lt (by omega)
  have m4 : t4 % 2 ^ 64 = t4 := Nat.mod_eq_of_lt (by omega)
  rw [m1, m2, m3, m4]
  have m5 : ((t1 / 2 ^ 32 + t2 % 2 ^ 32) % 2 ^ 64 + t3) % 2 ^ 64 = t1 / 2 ^ 32 + t2 % 2 ^ 32 + t3 := by
    rw [Nat.mod_eq_of_lt (show t1 / 2 ^ 32 + t2 % 2 ^ 32 < 2 ^ 64 by omega)]
    exact Nat.mod_eq_of_lt (by omega)
  rw [m5]
  obtain ⟨c, hc⟩ : ∃ c, c = t1 / 2 ^ 32 + t2 % 2 ^ 32 + t3 := ⟨_, rfl⟩
  rw [← hc]
  have hc' : c < 2 ^ 64 := by omega
  have hcl := half_shl c
  have hlow : (c * 2 ^ 32 % 2 ^ 64) ||| (t1 % 2 ^ 32) = t1 % 2 ^ 32 + c % 2 ^ 32 * 2 ^ 32 := by
    rw [hcl, Nat.or_comm]
    exact Int63.nat_or_eq_add (Nat.mod_lt _ (by decide))
  rw [hlow]
  have m6 : ((t2 / 2 ^ 32 + c / 2 ^ 32) % 2 ^ 64 + t4) % 2 ^ 64 = t2 / 2 ^ 32 + c / 2 ^ 32 + t4 := by
    rw [Nat.mod_eq_of_lt (show t2 / 2 ^ 32 + c / 2 ^ 32 < 2 ^ 64 by omega)]
    exact Nat.mod_eq_of_lt (by omega)
  rw [m6]
  obtain ⟨u, hu⟩ : ∃ u, u = t2 / 2 ^ 32 + c / 2 ^ 32 + t4 := ⟨_, rfl⟩
  obtain ⟨w, hw⟩ : ∃ w, w = t1 % 2 ^ 32 + c % 2 ^ 32 * 2 ^ 32 := ⟨_, rfl⟩
  rw [← hu, ← hw]
  have htot : t4 * 2 ^ 64 + (t2 + t3) * 2 ^ 32 + t1 = u * 2 ^ 64 + w := by omega
  rw [htot]
  have hw' : w < 2 ^ 64 := by omega
  have hu' : u < 2 ^ 62 := by omega
  clear htot hlow hcl hc m5 m6 m1 m2 m3 m4 b1 b2 b3 b4 eprod e1 e2 e3 e4
  constructor <;> omega

/-- `mulc_instrs` without the construction of the pair. -/
def mulcPre (x y : Nat) : List Instr :=
  (loadLocal x ++ low32 ++ loadLocal y ++ low32 ++ [b64 .mul, globalSet globTmp1] ++
    loadLocal x ++ high32 ++ loadLocal y ++ low32 ++ [b64 .mul, globalSet globTmp2] ++
    loadLocal x ++ low32 ++ loadLocal y ++ high32 ++ [b64 .mul, globalSet globTmp3] ++
    loadLocal x ++ high32 ++ loadLocal y ++ high32 ++ [b64 .mul, globalSet globTmp4] ++
  ([globalGet globTmp1] ++ high32 ++ [globalGet globTmp2] ++ low32 ++ [b64 .add, globalGet globTmp3, b64 .add, globalSet globTmp3] ++
  ([globalGet globTmp2] ++ high32 ++ [globalGet globTmp3] ++ high32 ++ [b64 .add] ++ [globalGet globTmp4, b64 .add, globalSet globTmp2] ++
  ([globalGet globTmp3, c64 32, b64 .shl] ++ [globalGet globTmp1] ++ low32 ++ [b64 .or, globalSet globTmp1] ++
  ([globalGet globTmp2, c64 1, b64 .shl, globalGet globTmp1, c64 63, b64 .shrU, b64 .add, globalSet globTmp2] ++
  ([globalGet globTmp1, c64 maxuint63, b64 .and, globalSet globTmp1] ++ []))))))

theorem mulcInstrs_split (x y : Nat) : mulcInstrs x y = mulcPre x y ++ makeProduct globTmp2 globTmp1 := by
  unfold mulcInstrs mulcPre
  simp only [List.append_assoc, List.append_nil, List.nil_append, List.cons_append]

theorem mulcPre_simple (x y : Nat) : (mulcPre x y).all Instr.simple = true := by
  unfold mulcPre
  simp only [List.all_append, Bool.and_eq_true]
  repeat' apply And.intro
  all_goals rfl

theorem steps_mulcPre (h : Ready s p) (hx : Arg s p x X) (hy : Arg s p y Y) :
    ∃ g, g 0 = s.globals 0 ∧ g 2 = s.globals 2 ∧ g 3 = s.globals 3 ∧ g globTmp2 = .i64 (X * Y / 2 ^ 63) ∧ g globTmp1 = .i64 (X * Y % 2 ^ 63) ∧
      steps E (mulcPre x y) ⟨s.mem, s.pages, s.globals, s.locals, s.stack⟩ = some ⟨s.mem, s.pages, g, s.locals, s.stack⟩ := by
  have hX := hx.1; have hY := hy.1
  obtain ⟨r1, r2⟩ := mulc_arith hX hY
  obtain ⟨t1, ht1⟩ : ∃ t, t = (X % 2 ^ 32) * (Y % 2 ^ 32) % 2 ^ 64 := ⟨_, rfl⟩
  obtain ⟨t2, ht2⟩ : ∃ t, t = (X / 2 ^ 32) * (Y % 2 ^ 32) % 2 ^ 64 := ⟨_, rfl⟩
  obtain ⟨t3, ht3⟩ : ∃ t, t = (X % 2 ^ 32) * (Y / 2 ^ 32) % 2 ^ 64 := ⟨_, rfl⟩
  obtain ⟨t4, ht4⟩ : ∃ t, t = (X / 2 ^ 32) * (Y / 2 ^ 32) % 2 ^ 64 := ⟨_, rfl⟩
  rw [← ht1, ← ht2, ← ht3, ← ht4] at r1
  rw [← ht1, ← ht2, ← ht3] at r2
  obtain ⟨c, hc⟩ : ∃ t, t = ((t1 / 2 ^ 32 + t2 % 2 ^ 32) % 2 ^ 64 + t3) % 2 ^ 64 := ⟨_, rfl⟩
  rw [← hc] at r1 r2
  obtain ⟨u, hu⟩ : ∃ t, t = ((t2 / 2 ^ 32 + c / 2 ^ 32) % 2 ^ 64 + t4) % 2 ^ 64 := ⟨_, rfl⟩
  obtain ⟨w, hw⟩ : ∃ t, t = (c * 2 ^ 32 % 2 ^ 64) ||| (t1 % 2 ^ 32) := ⟨_, rfl⟩
  rw [← hu, ← hw] at r1
  rw [← hw] at r2
  have e32 : 32 % 64 = 32 := rfl
  have e1 : 1 % 64 = 1 := rfl
  have e63 : 63 % 64 = 63 := rfl
  have hA : ∀ g is, steps E (loadLocal x ++ low32 ++ loadLocal y ++ low32 ++ [b64 .mul, globalSet globTmp1] ++
        loadLocal x ++ high32 ++ loadLocal y ++ low32 ++ [b64 .mul, globalSet globTmp2] ++
        loadLocal x ++ low32 ++ loadLocal y ++ high32 ++ [b64 .mul, globalSet globTmp3] ++
        loadLocal x ++ high32 ++ loadLocal y ++ high32 ++ [b64 .mul, globalSet globTmp4] ++ is) ⟨s.mem, s.pages, g, s.locals, s.stack⟩ =
      steps E is ⟨s.mem, s.pages, setGlobal (setGlobal (setGlobal (setGlobal g globTmp1 (.i64 t1)) globTmp2 (.i64 t2)) globTmp3 (.i64 t3)) globTmp4 (.i64 t4),
        s.locals, s.stack⟩ := by
    intro g is
    simp only [low32, high32, List.append_assoc, List.cons_append, List.nil_append, steps_loadLocal h hx, steps_loadLocal h hy, st_c64, st_and64,
      st_mul64, st_shrU64, st_gset, and_low32, e32, ← ht1, ← ht2, ← ht3, ← ht4]
  have hB : ∀ g is, g globTmp1 = .i64 t1 → g globTmp2 = .i64 t2 → g globTmp3 = .i64 t3 →
      steps E ([globalGet globTmp1] ++ high32 ++ [globalGet globTmp2] ++ low32 ++
        [b64 .add, globalGet globTmp3, b64 .add, globalSet globTmp3] ++ is) ⟨s.mem, s.pages, g, s.locals, s.stack⟩ =
      steps E is ⟨s.mem, s.pages, setGlobal g globTmp3 (.i64 c), s.locals, s.stack⟩ := by
    intro g is h1 h2 h3
    simp only [low32, high32, List.append_assoc, List.cons_append, List.nil_append, st_gget, h1, h2, h3, st_c64, st_and64,
      st_add64, st_shrU64, st_gset, and_low32, e32, ← hc]
  have hC : ∀ g is, g globTmp2 = .i64 t2 → g globTmp3 = .i64 c → g globTmp4 = .i64 t4 →
      steps E ([globalGet globTmp2] ++ high32 ++ [globalGet globTmp3] ++ high32 ++ [b64 .add] ++
        [globalGet globTmp4, b64 .add, globalSet globTmp2] ++ is) ⟨s.mem, s.pages, g, s.locals, s.stack⟩ =
      steps E is ⟨s.mem, s.pages, setGlobal g globTmp2 (.i64 u), s.locals, s.stack⟩ := by
    intro g is h1 h2 h3
    simp only [low32, high32, List.append_assoc, List.cons_append, List.nil_append, st_gget, h1, h2, h3, st_c64, st_and64,
      st_add64, st_shrU64, st_gset, and_low32, e32, ← hu]
  have hD : ∀ g is, g globTmp1 = .i64 t1 → g globTmp3 = .i64 c →
      steps E ([globalGet globTmp3, c64 32, b64 .shl] ++ [globalGet globTmp1] ++ low32 ++ [b64 .or, globalSet globTmp1] ++ is)
        ⟨s.mem, s.pages, g, s.locals, s.stack⟩ =
      steps E is ⟨s.mem, s.pages, setGlobal g globTmp1 (.i64 w), s.locals, s.stack⟩ := by
    intro g is h1 h2
    simp only [low32, List.append_assoc, List.cons_append, List.nil_append, st_gget, h1, h2, st_c64, st_and64,
      st_or64, st_shl64, st_gset, and_low32, e32, ← hw]
  have hF : ∀ g is, g globTmp1 = .i64 w → g globTmp2 = .i64 u →
      steps E ([globalGet globTmp2, c64 1, b64 .shl, globalGet globTmp1, c64 63, b64 .shrU, b64 .add, globalSet globTmp2] ++ is)
        ⟨s.mem, s.pages, g, s.locals, s.stack⟩ =
      steps E is ⟨s.mem, s.pages, setGlobal g globTmp2 (.i64 (X * Y / 2 ^ 63)), s.locals, s.stack⟩ := by
    intro g is h1 h2
    simp only [List.append_assoc, List.cons_append, List.nil_append, st_gget, h1, h2, st_c64, st_add64, st_shl64, st_shrU64, st_gset, e63, e1, r1]
  have hG : ∀ g is, g globTmp1 = .i64 w →
      steps E ([globalGet globTmp1, c64 maxuint63, b64 .and, globalSet globTmp1] ++ is)
        ⟨s.mem, s.pages, g, s.locals, s.stack⟩ =
      steps E is ⟨s.mem, s.pages, setGlobal g globTmp1 (.i64 (X * Y % 2 ^ 63)), s.locals, s.stack⟩ := by
    intro g is h1
    simp only [List.append_assoc, List.cons_append, List.nil_append, st_gget, h1, st_c64, st_and64, st_gset, and_maxuint63, r2]
  obtain ⟨g, hg⟩ : ∃ g, g = setGlobal (setGlobal (setGlobal (setGlobal s.globals globTmp1 (.i64 t1)) globTmp2 (.i64 t2)) globTmp3 (.i64 t3)) globTmp4 (.i64 t4) := ⟨_, rfl⟩
  have hg1 : g globTmp1 = .i64 t1 := by rw [hg]; rfl
  have hg2 : g globTmp2 = .i64 t2 := by rw [hg]; rfl
  have hg3 : g globTmp3 = .i64 t3 := by rw [hg]; rfl
  have hg4 : g globTmp4 = .i64 t4 := by rw [hg]; rfl
  have hg0 : g 0 = s.globals 0 ∧ g 2 = s.globals 2 ∧ g 3 = s.globals 3 := by rw [hg]; exact ⟨rfl, rfl, rfl⟩
  obtain ⟨gE, hgE⟩ : ∃ gE, gE = setGlobal (setGlobal (setGlobal (setGlobal (setGlobal g globTmp3 (.i64 c)) globTmp2 (.i64 u)) globTmp1 (.i64 w))
    globTmp2 (.i64 (X * Y / 2 ^ 63))) globTmp1 (.i64 (X * Y % 2 ^ 63)) := ⟨_, rfl⟩
  refine ⟨gE, by rw [hgE]; exact hg0.1, by rw [hgE]; exact hg0.2.1, by rw [hgE]; exact hg0.2.2, by rw [hgE]; rfl, by rw [hgE]; rfl, ?_⟩
  unfold mulcPre
  refine (hA _ _).trans ?_
  rw [← hg]
  refine (hB _ _ hg1 hg2 hg3).trans ?_
  refine (hC _ _ (by exact hg2) (by rfl) (by exact hg4)).trans ?_
  refine (hD _ _ (by exact hg1) (by rfl)).trans ?_
  refine (hF _ _ (by rfl) (by rfl)).trans ?_
  refine (hG _ _ (by rfl)).trans ?_
  rw [← hgE, st_nil]

theorem C09_mulc (h : Ready s p) (hx : Arg s p x X) (hy : Arg s p y Y) :
    ∃ is, translatePrimop .mulc [x, y] = some is ∧ Computes E is s p (IsPair · · · · (Uint63.mulc X Y)) := by
  have hX := hx.1; have hY := hy.1
  refine ⟨_, rfl, ?_⟩
  obtain ⟨g, g0, g2, g3, gt2, gt1, hst⟩ := steps_mulcPre (E := E) h hx hy
  have hsim : Sim s ⟨s.mem, s.pages, g, s.locals, s.stack⟩ := ⟨rfl, rfl, rfl, g0, g2, g3⟩
  have hb1 : X * Y / 2 ^ 63 < 2 ^ 63 := by
    rw [Nat.div_lt_iff_lt_mul (by decide)]
    exact Nat.mul_lt_mul'' hX hY
  obtain ⟨s', k1, k2, k3, k4⟩ := runs_makeProduct (E := E) (g1 := globTmp2) (g2 := globTmp1) h (n1 := X * Y / 2 ^ 63) (n2 := X * Y % 2 ^ 63)
    (by omega) (by omega) hsim gt2 gt1
  refine ⟨s', _, _, ?_, k2, k3, k4⟩
  rw [mulcInstrs_split]
  exact Runs.steps (mulcPre_simple x y) hst k1

/-! ## Euclidean division -/

/-- `is` leaves `a` and `b` in the globals `i` and `j` and the rest of the state that matters alone. -/
def Puts (E : Env) (is : List Instr) (s : St) (st : List Val) (i j a b : Nat) : Prop :=
  ∃ g, g 0 = s.globals 0 ∧ g 2 = s.globals 2 ∧ g 3 = s.globals 3 ∧ g i = .i64 a ∧ g j = .i64 b ∧
    Runs E is ⟨s.mem, s.pages, s.globals, s.locals, st⟩ (.ok ⟨s.mem, s.pages, g, s.locals, st⟩)

theorem Puts.pair {is : List Instr} {i j a b : Nat} (h : Ready s p) (ha : a < 2 ^ 64) (hb : b < 2 ^ 64)
    (hp : Puts E is s s.stack i j a b) : Computes E (is ++ makeProduct i j) s p (IsPair · · · · (a, b)) := by
  obtain ⟨g, g0, g2, g3, gi, gj, hr⟩ := hp
  have hsim : Sim s ⟨s.mem, s.pages, g, s.locals, s.stack⟩ := ⟨rfl, rfl, rfl, g0, g2, g3⟩
  obtain ⟨s', k1, k2, k3, k4⟩ := runs_makeProduct (E := E) h ha hb hsim gi gj
  exact ⟨s', _, _, hr.append k1, k2, k3, k4⟩

theorem Puts.straight {is : List Instr} {st : List Val} {i j a b : Nat} {g : Nat → Val} (hs : is.all Instr.simple = true)
    (g0 : g 0 = s.globals 0) (g2 : g 2 = s.globals 2) (g3 : g 3 = s.globals 3) (gi : g i = .i64 a) (gj : g j = .i64 b)
    (h : steps E is ⟨s.mem, s.pages, s.globals, s.locals, st⟩ = some ⟨s.mem, s.pages, g, s.locals, st⟩) :
    Puts E is s st i j a b := ⟨g, g0, g2, g3, gi, gj, Runs.straight hs h⟩

theorem Puts.ite {pre a b : List Instr} {st : List Val} {t : Bool} {i j u v : Nat} (hs : pre.all Instr.simple = true)
    (hpre : steps E pre ⟨s.mem, s.pages, s.globals, s.locals, st⟩ = some ⟨s.mem, s.pages, s.globals, s.locals, boolVal t :: st⟩)
    (hbr : Puts E (if t then a else b) s [] i j u v) : Puts E (pre ++ [ifte [] a b]) s st i j u v := by
  obtain ⟨g, g0, g2, g3, gi, gj, hr⟩ := hbr
  refine ⟨g, g0, g2, g3, gi, gj, Runs.steps hs hpre ?_⟩
  refine Runs.ite (c := if t then 1 else 0) (st := st) rfl (s' := ⟨s.mem, s.pages, g, s.locals, []⟩) ?_ (Runs.nil _ _)
  rw [show (if (if t then 1 else 0) = 0 then b else a) = (if t then a else b) by cases t <;> rfl]
  exact hr

theorem C09_diveucl (h : Ready s p) (hx : Arg s p x X) (hy : Arg s p y Y) :
    ∃ is, translatePrimop .diveucl [x, y] = some is ∧ Computes E is s p (IsPair · · · · (Uint63.diveucl X Y)) := by
  have hX := hx.1; have hY := hy.1
  refine ⟨_, rfl, ?_⟩
  have hq : X / Y < 2 ^ 64 := Nat.lt_of_le_of_lt (Nat.div_le_self _ _) (by omega)
  have hr : X % Y < 2 ^ 64 := Nat.lt_of_le_of_lt (Nat.mod_le _ _) (by omega)
  have e1 := fun g st is => steps_loadLocal (E := E) h hx (g := g) (st := st) (is := is)
  have e2 := fun g st is => steps_loadLocal (E := E) h hy (g := g) (st := st) (is := is)
  have hP : Puts E (loadLocal x ++ [eqz .t64] ++ [ifte [] [c64 0, globalSet globTmp1, c64 0, globalSet globTmp2]
     (loadLocal y ++ [eqz .t64] ++ [ifte [] ([c64 0, globalSet globTmp1] ++ loadLocal x ++ [globalSet globTmp2])
         (loadLocal x ++ loadLocal y ++ [b64 .divU, globalSet globTmp1] ++
          loadLocal x ++ loadLocal y ++ [b64 .remU, globalSet globTmp2])])]) s s.stack globTmp1 globTmp2 (X / Y) (X % Y) := by
    refine Puts.ite (t := decide (X = 0)) rfl (by rw [e1, st_eqz64, st_nil]) ?_
    by_cases hX0 : X = 0
    · rw [if_pos (decide_eq_true hX0), hX0, Nat.zero_div, Nat.zero_mod]
      exact Puts.straight (g := setGlobal (setGlobal s.globals globTmp1 (.i64 0)) globTmp2 (.i64 0)) rfl rfl rfl rfl rfl rfl
        (by rw [st_c64, st_gset, st_c64, st_gset, st_nil])
    · rw [if_neg (by simpa using hX0)]
      refine Puts.ite (t := decide (Y = 0)) rfl (by rw [e2, st_eqz64, st_nil]) ?_
      by_cases hY0 : Y = 0
      · rw [if_pos (decide_eq_true hY0), hY0, Nat.div_zero, Nat.mod_zero]
        exact Puts.straight (g := setGlobal (setGlobal s.globals globTmp1 (.i64 0)) globTmp2 (.i64 X)) rfl rfl rfl rfl rfl rfl
          (by rw [List.append_assoc, List.cons_append, st_c64, List.cons_append, st_gset, List.nil_append, e1, st_gset, st_nil])
      · rw [if_neg (by simpa using hY0)]
        refine Puts.straight (g := setGlobal (setGlobal s.globals globTmp1 (.i64 (X / Y))) globTmp2 (.i64 (X % Y))) rfl rfl rfl rfl ?_ ?_ ?_
        · exact setGlobal_other _ _ (by decide)
        · exact setGlobal_same _ _ _
        · simp only [List.append_assoc, List.cons_append, List.nil_append]
          rw [e1, e2, st_bin64 (r := X / Y) (by simp only [evalBin]; rw [if_neg hY0]), st_gset, e1, e2,
            st_bin64 (r := X % Y) (by simp only [evalBin]; rw [if_neg hY0]), st_gset, st_nil]
  have := hP.pair h hq hr
  simp only [diveuclInstrs, List.append_assoc, List.cons_append, List.nil_append] at this ⊢
  exact this

/-! ## Division of a double word -/

/-- State of the division loop (`xh`, `xl`, `y`, `q` and the counter), over a fixed memory. -/
structure DivSt (g g0 : Nat → Val) (r t y q i : Nat) : Prop where
  k0 : g 0 = g0 0
  k2 : g 2 = g0 2
  k3 : g 3 = g0 3
  r : g globTmp1 = .i64 r
  t : g globTmp2 = .i64 t
  y : g globTmp3 = .i64 y
  q : g globTmp4 = .i64 q
  i : g globCap = .i32 i

theorem or_bit {a b : Nat} (hb : b < 2) : (2 * a) ||| b = 2 * a + b := by
  have := Int63.nat_or_eq_add (a := b) (b := a) (k := 1) (by omega)
  rw [Nat.or_comm, Nat.mul_comm, show a * 2 = a * 2 ^ 1 by omega, this]; omega

theorem divBody_ok {m : Mem} {pg : Nat} {l : List Val} {g g0 : Nat → Val} {r t y q i : Nat} (hg : DivSt g g0 r t y q i)
    (hr : r < y) (hy : y < 2 ^ 63) (hq : q < 2 ^ 63) :
    ∃ g' , Runs E diveucl21Body ⟨m, pg, g, l, []⟩ (.ok ⟨m, pg, g', l, []⟩) ∧
      (y ≤ 2 * r + 2 * (t % 2 ^ 63) / 2 ^ 63 → DivSt g' g0 (2 * r + 2 * (t % 2 ^ 63) / 2 ^ 63 - y) (2 * (t % 2 ^ 63)) y (2 * q + 1) i) ∧
      (2 * r + 2 * (t % 2 ^ 63) / 2 ^ 63 < y → DivSt g' g0 (2 * r + 2 * (t % 2 ^ 63) / 2 ^ 63) (2 * (t % 2 ^ 63)) y (2 * q) i) := by
  have e1 : 1 % 64 = 1 := rfl
  have e63 : 63 % 64 = 63 := rfl
  have et : t * 2 ^ 1 % 2 ^ 64 = 2 * (t % 2 ^ 63) := by omega
  have er : r * 2 ^ 1 % 2 ^ 64 = 2 * r := by omega
  have eq : q * 2 ^ 1 % 2 ^ 64 = 2 * q := by omega
  obtain ⟨t', ht'⟩ : ∃ t', t' = 2 * (t % 2 ^ 63) := ⟨_, rfl⟩
  obtain ⟨b, hb⟩ : ∃ b, b = t' / 2 ^ 63 := ⟨_, rfl⟩
  have hb2 : b < 2 := by omega
  have eb := or_bit (a := r) hb2
  rw [← ht', ← hb]
  rw [← ht'] at et
  obtain ⟨R, hR⟩ : ∃ R, R = 2 * r + b := ⟨_, rfl⟩
  rw [← hR] at eb ⊢
  obtain ⟨k0, k2, k3, kr, kt, ky, kq, ki⟩ := hg
  obtain ⟨g1, hg1⟩ : ∃ g1, g1 = setGlobal g globTmp2 (.i64 t') := ⟨_, rfl⟩
  have a1 : g1 globTmp2 = .i64 t' := by rw [hg1]; rfl
  have a2 : g1 globTmp1 = .i64 r := by rw [hg1]; exact kr
  obtain ⟨g2, hg2⟩ : ∃ g2, g2 = setGlobal g1 globTmp1 (.i64 R) := ⟨_, rfl⟩
  have b1 : g2 globTmp4 = .i64 q := by rw [hg2, hg1]; exact kq
  obtain ⟨g3, hg3⟩ : ∃ g3, g3 = setGlobal g2 globTmp4 (.i64 (2 * q)) := ⟨_, rfl⟩
  have D3 : DivSt g3 g0 R t' y (2 * q) i := by
    rw [hg3, hg2, hg1]
    exact ⟨k0, k2, k3, rfl, rfl, ky, rfl, ki⟩
  have hpre : ∀ is, steps E ([globalGet globTmp2, c64 1, b64 .shl, globalSet globTmp2,
      globalGet globTmp1, c64 1, b64 .shl, globalGet globTmp2, c64 63, b64 .shrU, b64 .or, globalSet globTmp1,
      globalGet globTmp4, c64 1, b64 .shl, globalSet globTmp4,
      globalGet globTmp1, globalGet globTmp3, relop .t64 .geU] ++ is) ⟨m, pg, g, l, []⟩ =
      steps E is ⟨m, pg, g3, l, [boolVal (decide (y ≤ R))]⟩ := by
    intro is
    simp only [List.cons_append, List.nil_append]
    rw [st_gget, kt, st_c64, st_shl64, e1, et, st_gset, ← hg1, st_gget, a2, st_c64, st_shl64, e1, er, st_gget, a1, st_c64, st_shrU64, e63, ← hb,
      st_or64, eb, st_gset, ← hg2, st_gget, b1, st_c64, st_shl64, e1, eq, st_gset, ← hg3, st_gget, D3.r, st_gget, D3.y, st_rel64]
    rfl
  have hsplit : diveucl21Body = [globalGet globTmp2, c64 1, b64 .shl, globalSet globTmp2,
      globalGet globTmp1, c64 1, b64 .shl, globalGet globTmp2, c64 63, b64 .shrU, b64 .or, globalSet globTmp1,
      globalGet globTmp4, c64 1, b64 .shl, globalSet globTmp4,
      globalGet globTmp1, globalGet globTmp3, relop .t64 .geU] ++ [ifte []
     [globalGet globTmp4, c64 1, b64 .or, globalSet globTmp4,
      globalGet globTmp1, globalGet globTmp3, b64 .sub, globalSet globTmp1] []] := rfl
  have hp := hpre []
  rw [st_nil, List.append_nil] at hp
  by_cases hc : y ≤ R
  · obtain ⟨g4, hg4⟩ : ∃ g4, g4 = setGlobal g3 globTmp4 (.i64 (2 * q + 1)) := ⟨_, rfl⟩
    obtain ⟨g5, hg5⟩ : ∃ g5, g5 = setGlobal g4 globTmp1 (.i64 (R - y)) := ⟨_, rfl⟩
    have c1 : g4 globTmp1 = .i64 R := by rw [hg4]; exact D3.r
    have c2 : g4 globTmp3 = .i64 y := by rw [hg4]; exact D3.y
    refine ⟨g5, ?_, fun _ => ?_, fun h => absurd h (by omega)⟩
    · rw [hsplit]
      refine Runs.steps rfl hp ?_
      refine Runs.ite (c := 1) (st := []) (by rw [decide_eq_true hc]; rfl) (s' := ⟨m, pg, g5, l, []⟩) ?_ (Runs.nil _ _)
      rw [if_neg (by decide)]
      refine Runs.straight rfl ?_
      change steps E _ ⟨m, pg, g3, l, []⟩ = _
      rw [st_gget, D3.q, st_c64, st_or64, or_bit (by omega), st_gset, ← hg4, st_gget, c1, st_gget, c2, st_sub64,
        show (R + 2 ^ 64 - y) % 2 ^ 64 = R - y by omega, st_gset, ← hg5, st_nil]
    · rw [hg5, hg4]
      exact ⟨D3.k0, D3.k2, D3.k3, rfl, D3.t, D3.y, rfl, D3.i⟩
  · refine ⟨g3, ?_, fun h => absurd h hc, fun _ => D3⟩
    rw [hsplit]
    refine Runs.steps rfl hp ?_
    refine Runs.ite (c := 0) (st := []) (by rw [decide_eq_false hc]; rfl) (s' := ⟨m, pg, g3, l, []⟩) ?_ (Runs.nil _ _)
    rw [if_pos rfl]
    exact Runs.nil _ _

/-- Invariant of the division loop: the dividend `N` is `M * 2^k + L`, of which `M = q * y + r` has been divided and
`L` is still in the upper bits (below bit 63) of the shifted low word. -/
structure DivInv (N y r t q i k : Nat) : Prop where
  count : i + k = 63
  small : r < y
  left : ∃ L, N = (q * y + r) * 2 ^ k + L ∧ L < 2 ^ k ∧ t % 2 ^ 63 = L * 2 ^ i
  qsmall : q < 2 ^ i

theorem DivInv.next {N y r t q i k : Nat} (h : DivInv N y r t q i (k + 1)) :
    let b := 2 * (t % 2 ^ 63) / 2 ^ 63
    (y ≤ 2 * r + b → DivInv N y (2 * r + b - y) (2 * (t % 2 ^ 63)) (2 * q + 1) (i + 1) k) ∧
    (2 * r + b < y → DivInv N y (2 * r + b) (2 * (t % 2 ^ 63)) (2 * q) (i + 1) k) := by
  obtain ⟨hc, hs, ⟨L, hN, hL, ht⟩, hq⟩ := h
  intro b
  have hP : 2 ^ 63 = 2 ^ k * 2 ^ (i + 1) := by rw [← Nat.pow_add]; congr 1; omega
  obtain ⟨P, hPk⟩ : ∃ P, P = 2 ^ k := ⟨_, rfl⟩
  obtain ⟨Q, hQi⟩ : ∃ Q, Q = 2 ^ (i + 1) := ⟨_, rfl⟩
  have hPp : 0 < P := by rw [hPk]; exact Nat.two_pow_pos _
  have hQp : 0 < Q := by rw [hQi]; exact Nat.two_pow_pos _
  rw [← hPk, ← hQi] at hP
  have hL2 : L < 2 * P := by rw [hPk, Nat.mul_comm, ← Nat.pow_succ]; exact hL
  have ht2 : 2 * (t % 2 ^ 63) = L * Q := by rw [ht, hQi, Nat.pow_succ]; ring
  have hLd : L = P * (L / P) + L % P := (Nat.div_add_mod L P).symm
  have hLm : L % P < P := Nat.mod_lt _ hPp
  have hLQ : L * Q = (L % P) * Q + 2 ^ 63 * (L / P) := by
    conv_lhs => rw [hLd]
    rw [hP]; ring
  have hlow : (L % P) * Q < 2 ^ 63 := by rw [hP]; exact Nat.mul_lt_mul_of_pos_right hLm hQp
  have hb : b = L / P := by
    change 2 * (t % 2 ^ 63) / 2 ^ 63 = L / P
    rw [ht2, hLQ, Nat.add_mul_div_left _ _ (Nat.two_pow_pos 63), Nat.div_eq_of_lt hlow, Nat.zero_add]
  have hmod : 2 * (t % 2 ^ 63) % 2 ^ 63 = (L % P) * Q := by
    rw [ht2, hLQ, Nat.add_mul_mod_self_left, Nat.mod_eq_of_lt hlow]
  have hb2 : L / P < 2 := by
    rw [Nat.div_lt_iff_lt_mul hPp]; exact hL2
  have hq2 : 2 * q + 1 < 2 ^ (i + 1) := by rw [Nat.pow_succ]; omega
  have hNe : N = (2 * (q * y + r) + L / P) * P + L % P := by
    rw [hN, Nat.pow_succ, ← hPk]
    conv_lhs => rw [hLd]
    ring
  rw [hb]
  constructor
  · intro hge
    refine ⟨by omega, by omega, ⟨L % P, ?_, by rw [← hPk]; exact hLm, by rw [hmod, hQi]⟩, hq2⟩
    rw [← hPk, hNe]
    congr 2
    have : (2 * q + 1) * y = 2 * (q * y) + y := by ring
    omega
  · intro hlt
    refine ⟨by omega, hlt, ⟨L % P, ?_, by rw [← hPk]; exact hLm, by rw [hmod, hQi]⟩, by omega⟩
    rw [← hPk, hNe]
    congr 2
    have : (2 * q) * y = 2 * (q * y) := by ring
    omega

theorem divLoop_ok {m : Mem} {pg : Nat} {l st : List Val} {g0 : Nat → Val} {N y : Nat} (hy : y < 2 ^ 63) :
    ∀ (k i : Nat) (g : Nat → Val) (r t q : Nat), DivSt g g0 r t y q i → DivInv N y r t q i k →
      ∃ g' t', DivSt g' g0 (N % y) t' y (N / y) 63 ∧
        ∀ is o, Runs E is ⟨m, pg, g', l, st⟩ o → Runs E (loop (diveucl21Loop 63) :: is) ⟨m, pg, g, l, st⟩ o := by
  intro k
  induction k with
  | zero =>
    intro i g r t q hd hi
    obtain ⟨hc, hs, ⟨L, hN, hL, _⟩, _⟩ := hi
    have hi63 : i = 63 := by omega
    have hL0 : L = 0 := by omega
    have hN' : N = y * q + r := by rw [hN, hL0]; ring
    have h1 : N / y = q := by rw [hN', Nat.mul_add_div (by omega), Nat.div_eq_of_lt hs, Nat.add_zero]
    have h2 : N % y = r := by rw [hN', Nat.mul_add_mod, Nat.mod_eq_of_lt hs]
    refine ⟨g, t, by rw [h1, h2, ← hi63]; exact hd, fun is o hr => ?_⟩
    refine Runs.loop_done (s' := ⟨m, pg, g, l, []⟩) ?_ hr
    refine Runs.steps (is := [globalGet globCap, c32 63, relop .t32 .ltU]) (s' := ⟨m, pg, g, l, [boolVal (decide (i < 63))]⟩) rfl ?_ ?_
    · change steps E _ ⟨m, pg, g, l, []⟩ = _
      rw [st_gget, hd.i, st_c32, st_rel32, st_nil]; rfl
    · refine Runs.ite (c := 0) (st := []) (by rw [decide_eq_false (by omega)]; rfl) (s' := ⟨m, pg, g, l, []⟩) ?_ (Runs.nil _ _)
      rw [if_pos rfl]
      exact Runs.nil _ _
  | succ k ih =>
    intro i g r t q hd hi
    have hc := hi.count
    have hq : q < 2 ^ 63 := Nat.lt_of_lt_of_le hi.qsmall (Nat.pow_le_pow_right (by decide) (by omega))
    obtain ⟨g1, hrun, c1, c2⟩ := divBody_ok (E := E) (m := m) (pg := pg) (l := l) hd hi.small hy hq
    have hn := hi.next
    simp only [] at hn
    have hex : ∃ r' t' q', DivSt g1 g0 r' t' y q' i ∧ DivInv N y r' t' q' (i + 1) k := by
      by_cases hle : y ≤ 2 * r + 2 * (t % 2 ^ 63) / 2 ^ 63
      · exact ⟨_, _, _, c1 hle, hn.1 hle⟩
      · exact ⟨_, _, _, c2 (by omega), hn.2 (by omega)⟩
    obtain ⟨r', t', q', hd1, hi1⟩ := hex
    obtain ⟨g2, hg2⟩ : ∃ g2, g2 = setGlobal g1 globCap (.i32 (i + 1)) := ⟨_, rfl⟩
    have hd2 : DivSt g2 g0 r' t' y q' (i + 1) := by
      rw [hg2]
      exact ⟨hd1.k0, hd1.k2, hd1.k3, hd1.r, hd1.t, hd1.y, hd1.q, rfl⟩
    obtain ⟨g', t'', hfin, hrec⟩ := ih (i + 1) g2 r' t' q' hd2 hi1
    refine ⟨g', t'', hfin, fun is o hr => ?_⟩
    refine Runs.loop_again (s' := ⟨m, pg, g2, l, []⟩) ?_ (hrec is o hr)
    refine Runs.steps (is := [globalGet globCap, c32 63, relop .t32 .ltU]) (s' := ⟨m, pg, g, l, [boolVal (decide (i < 63))]⟩) rfl ?_ ?_
    · change steps E _ ⟨m, pg, g, l, []⟩ = _
      rw [st_gget, hd.i, st_c32, st_rel32, st_nil]; rfl
    · refine Runs.ite_br (c := 1) (st := []) (by rw [decide_eq_true (by omega)]; rfl) ?_
      rw [if_neg (by decide)]
      refine hrun.append ?_
      refine Runs.steps (is := [globalGet globCap, c32 1, binop .t32 .add, globalSet globCap]) (s' := ⟨m, pg, g2, l, []⟩) rfl ?_ (Runs.br _ _ _ _)
      rw [st_gget, hd1.i, st_c32, st_add32 (by omega), st_gset, st_nil, hg2]

theorem C09_diveucl21 (h : Ready s p) (hx : Arg s p x X) (hy : Arg s p y Y) (hz : Arg s p z Z) :
    ∃ is, translatePrimop .diveucl21 [x, y, z] = some is ∧ Computes E is s p (IsPair · · · · (Uint63.diveucl21 X Y Z)) := by
  have hX := hx.1; have hY := hy.1; have hZ := hz.1
  refine ⟨_, rfl, ?_⟩
  have e1 := fun g st is => steps_loadLocal (E := E) h hx (g := g) (st := st) (is := is)
  have e2 := fun g st is => steps_loadLocal (E := E) h hy (g := g) (st := st) (is := is)
  have e3 := fun g st is => steps_loadLocal (E := E) h hz (g := g) (st := st) (is := is)
  have hpre : steps E (loadLocal z ++ (loadLocal x ++ [relop .t64 .leU])) ⟨s.mem, s.pages, s.globals, s.locals, s.stack⟩ =
      some ⟨s.mem, s.pages, s.globals, s.locals, boolVal (decide (Z ≤ X)) :: s.stack⟩ := by
    rw [e3, e1, st_rel64, st_nil]; rfl
  have hsplit : diveucl21Instrs x y z = (loadLocal z ++ (loadLocal x ++ [relop .t64 .leU])) ++
      [ifte [.t32] ([c64 0, globalSet globTmp1] ++ makeProduct globTmp1 globTmp1)
       ((loadLocal x ++ [globalSet globTmp1] ++ loadLocal y ++ [globalSet globTmp2] ++
        loadLocal z ++ [globalSet globTmp3] ++ [c64 0, globalSet globTmp4, c32 0, globalSet globCap]) ++ (loop (diveucl21Loop 63) ::
        makeProduct globTmp4 globTmp1))] := by
    simp only [diveucl21Instrs, List.append_assoc, List.cons_append, List.nil_append]
  change Computes E (diveucl21Instrs x y z) s p _
  rw [hsplit]
  -- the pair produced by the branch
  have fin : ∀ {a b : Nat} {br : List Instr} {g : Nat → Val} {i j : Nat} (c : Nat) (is : List Instr), a < 2 ^ 64 → b < 2 ^ 64 → g 0 = s.globals 0 →
      g 2 = s.globals 2 → g 3 = s.globals 3 → g i = .i64 a → g j = .i64 b →
      boolVal (decide (Z ≤ X)) = .i32 c →
      (∀ o, Runs E (makeProduct i j) ⟨s.mem, s.pages, g, s.locals, []⟩ o → Runs E br ⟨s.mem, s.pages, s.globals, s.locals, []⟩ o) →
      ∀ A B, (if c = 0 then B else A) = br →
      Computes E ((loadLocal z ++ (loadLocal x ++ [relop .t64 .leU])) ++ [ifte [.t32] A B]) s p (IsPair · · · · (a, b)) := by
    intro a b br g i j c is ha hb g0 g2 g3 gi gj hcv hrun A B hAB
    have hsim : Sim s ⟨s.mem, s.pages, g, s.locals, []⟩ := ⟨rfl, rfl, rfl, g0, g2, g3⟩
    obtain ⟨s', k1, k2, k3, k4⟩ := runs_makeProduct (E := E) h ha hb hsim gi gj
    refine ⟨{ s' with stack := .i32 (p + 16) :: s.stack }, _, _, Runs.steps rfl hpre ?_, rfl,
      ⟨k3.1, k3.2, k3.3, k3.4, k3.5, k3.6, k3.7, k3.8, k3.9⟩, k4⟩
    refine Runs.ite (c := c) (st := s.stack) (by rw [hcv]) (s' := s') ?_ ?_
    · rw [hAB]; exact hrun _ k1
    · rw [k2]; exact Runs.nil _ _
  unfold Uint63.diveucl21
  by_cases hlt : X < Z
  · rw [if_pos hlt]
    obtain ⟨g, hg⟩ : ∃ g, g = setGlobal (setGlobal (setGlobal (setGlobal (setGlobal s.globals globTmp1 (.i64 X)) globTmp2 (.i64 Y)) globTmp3 (.i64 Z))
      globTmp4 (.i64 0)) globCap (.i32 0) := ⟨_, rfl⟩
    have hd : DivSt g s.globals X Y Z 0 0 := by
      rw [hg]; exact ⟨rfl, rfl, rfl, rfl, rfl, rfl, rfl, rfl⟩
    have hi : DivInv (X * 2 ^ 63 + Y) Z X Y 0 0 63 :=
      ⟨rfl, hlt, ⟨Y, by rw [Nat.zero_mul, Nat.zero_add], hY, by rw [Nat.mod_eq_of_lt hY, Nat.pow_zero, Nat.mul_one]⟩, by decide⟩
    obtain ⟨g', t', hd', hrun⟩ := divLoop_ok (E := E) (m := s.mem) (pg := s.pages) (l := s.locals) (st := []) hZ 63 0 g X Y 0 hd hi
    unfold Uint63.B
    have hN : X * 2 ^ 63 + Y < Z * 2 ^ 63 := by
      have : (X + 1) * 2 ^ 63 ≤ Z * 2 ^ 63 := Nat.mul_le_mul_right _ hlt
      rw [Nat.add_mul, Nat.one_mul] at this
      omega
    have hq : (X * 2 ^ 63 + Y) / Z < 2 ^ 63 := by
      rw [Nat.div_lt_iff_lt_mul (by omega), Nat.mul_comm (2 ^ 63)]; exact hN
    have hr : (X * 2 ^ 63 + Y) % Z < Z := Nat.mod_lt _ (by omega)
    refine fin (g := g') 0 [] (by omega) (by omega) hd'.k0 hd'.k2 hd'.k3 hd'.q hd'.r (by rw [decide_eq_false (by omega)]; rfl) ?_ _ _ (if_pos rfl)
    intro o ho
    refine Runs.steps (by rfl) (s' := ⟨s.mem, s.pages, g, s.locals, []⟩) ?_ (hrun _ _ ho)
    simp only [List.append_assoc, List.cons_append, List.nil_append]
    rw [e1, st_gset, e2, st_gset, e3, st_gset, st_c64, st_gset, st_c32, st_gset, st_nil, hg]
  · rw [if_neg hlt]
    refine fin (g := setGlobal s.globals globTmp1 (.i64 0)) (i := globTmp1) (j := globTmp1) 1 [] (by decide) (by decide) rfl rfl rfl rfl rfl
      (by rw [decide_eq_true (by omega)]; rfl) ?_ _ _ (if_neg (by decide))
    intro o ho
    refine Runs.steps (is := [c64 0, globalSet globTmp1]) rfl ?_ ho
    rw [st_c64, st_gset, st_nil]

end
end Wasm
