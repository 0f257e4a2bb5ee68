import Verif.Wasm.PrimLemmas

/-!
# C09: the 63-bit integer primitives of the Wasm backend

Every theorem is about the code chosen by `translatePrimop` (so also about the dispatch), for every state in which the
reserved memory is there and the operands are pointers to integers below `2^63`.
-/

namespace Wasm
open Instr

section
variable {E : Env} {s : St} {p x y z X Y Z : Nat}

/-! ## Operations with an integer result computed without branching -/

theorem applyBinop_ok {op : Bin} {mask : Bool} {r n : Nat} (h : Ready s p) (hx : Arg s p x X) (hy : Arg s p y Y)
    (hop : evalBin 64 op X Y = some r) (hn : (if mask then r % 2 ^ 63 else r) = n) (hn' : n < 2 ^ 63) :
    Computes E (applyBinop op x y mask) s p (IsInt · · · · n) := by
  obtain ⟨s', h1, h2, h3, h4⟩ := runs_storeInt (E := E) (n := n) h (by omega)
  refine ⟨s', _, _, ?_, h2, h3, h4⟩
  unfold applyBinop
  rw [List.append_assoc]
  refine Runs.steps (by cases mask <;> rfl) ?_ h1
  rcases s with ⟨m, pg, g, l, st⟩
  have hg : g 0 = .i32 p := h.gmp
  simp only [List.cons_append, List.append_assoc]
  rw [st_gget, steps_loadLocal h hx, steps_loadLocal h hy, List.nil_append, st_bin64 hop]
  subst hn
  cases mask
  · simp only [globMemPtr, hg]; rfl
  · simp only [bitmask, if_true]
    rw [st_c64, st_and64, and_maxuint63, st_nil]
    simp only [globMemPtr, hg]

theorem C09_add (h : Ready s p) (hx : Arg s p x X) (hy : Arg s p y Y) :
    ∃ is, translatePrimop .add [x, y] = some is ∧ Computes E is s p (IsInt · · · · (Uint63.add X Y)) := by
  have := hx.1; have := hy.1
  refine ⟨_, rfl, applyBinop_ok h hx hy (by unfold evalBin; rfl) ?_ ?_⟩
  · simp only [Uint63.add, Uint63.B, if_true]; omega
  · simp only [Uint63.add, Uint63.B]; omega

theorem C09_sub (h : Ready s p) (hx : Arg s p x X) (hy : Arg s p y Y) :
    ∃ is, translatePrimop .sub [x, y] = some is ∧ Computes E is s p (IsInt · · · · (Uint63.sub X Y)) := by
  have := hx.1; have := hy.1
  refine ⟨_, rfl, applyBinop_ok h hx hy (by unfold evalBin; rfl) ?_ ?_⟩
  · simp only [Uint63.sub, Uint63.ofInt, if_true]; omega
  · simp only [Uint63.sub, Uint63.ofInt]; omega

theorem C09_mul (h : Ready s p) (hx : Arg s p x X) (hy : Arg s p y Y) :
    ∃ is, translatePrimop .mul [x, y] = some is ∧ Computes E is s p (IsInt · · · · (Uint63.mul X Y)) := by
  refine ⟨_, rfl, applyBinop_ok h hx hy (by unfold evalBin; rfl) ?_ ?_⟩
  · simp only [Uint63.mul, Uint63.B, if_true]
    exact Nat.mod_mod_of_dvd _ (by decide)
  · simp only [Uint63.mul, Uint63.B]; exact Nat.mod_lt _ (by decide)

theorem C09_land (h : Ready s p) (hx : Arg s p x X) (hy : Arg s p y Y) :
    ∃ is, translatePrimop .land [x, y] = some is ∧ Computes E is s p (IsInt · · · · (Uint63.land X Y)) :=
  ⟨_, rfl, applyBinop_ok h hx hy (by unfold evalBin; rfl) rfl (Nat.and_lt_two_pow _ hy.1)⟩

theorem C09_lor (h : Ready s p) (hx : Arg s p x X) (hy : Arg s p y Y) :
    ∃ is, translatePrimop .lor [x, y] = some is ∧ Computes E is s p (IsInt · · · · (Uint63.lor X Y)) :=
  ⟨_, rfl, applyBinop_ok h hx hy (by unfold evalBin; rfl) rfl (Nat.or_lt_two_pow hx.1 hy.1)⟩

theorem C09_lxor (h : Ready s p) (hx : Arg s p x X) (hy : Arg s p y Y) :
    ∃ is, translatePrimop .lxor [x, y] = some is ∧ Computes E is s p (IsInt · · · · (Uint63.lxor X Y)) :=
  ⟨_, rfl, applyBinop_ok h hx hy (by unfold evalBin; rfl) rfl (Nat.xor_lt_two_pow hx.1 hy.1)⟩

theorem clz_spec : ∀ (N n : Nat), n < 2 ^ N → (n = 0 ∧ clz N n = N) ∨ (clz N n < N ∧ 2 ^ (N - 1) ≤ n * 2 ^ clz N n ∧ n * 2 ^ clz N n < 2 ^ N)
  | 0, n, h => by left; simp [clz] at *; omega
  | N + 1, n, h => by
    rw [clz]
    split
    · right; simp; omega
    · rename_i h'
      rcases clz_spec N n (by omega) with ⟨h0, h1⟩ | ⟨h0, h1, h2⟩
      · left; exact ⟨h0, by omega⟩
      · right
        refine ⟨by omega, ?_, ?_⟩
        · rw [pow_succ, ← Nat.mul_assoc, show N + 1 - 1 = (N - 1) + 1 by omega, pow_succ]; omega
        · rw [pow_succ, ← Nat.mul_assoc, pow_succ]; omega

theorem ctz_spec : ∀ (N n : Nat), n < 2 ^ N → n ≠ 0 → ∃ k, n = 2 ^ ctz N n * (2 * k + 1) ∧ ctz N n < N
  | 0, n, h, h' => by simp at h; omega
  | N + 1, n, h, h' => by
    rw [ctz]
    split
    · exact ⟨n / 2, by simp; omega, by omega⟩
    · obtain ⟨k, hk, hk'⟩ := ctz_spec N (n / 2) (by rw [pow_succ] at h; omega) (by omega)
      refine ⟨k, ?_, by omega⟩
      rw [pow_succ, Nat.mul_right_comm, ← hk]; omega

theorem C09_head0 (h : Ready s p) (hx : Arg s p x X) :
    ∃ is n, translatePrimop .head0 [x] = some is ∧ Uint63.IsHead0 X n ∧ Computes E is s p (IsInt · · · · n) := by
  have hX := hx.1
  have hc : clz 64 X = clz 63 X + 1 := by rw [clz, if_neg (by omega)]
  have hspec := clz_spec 63 X hX
  have hle : clz 63 X ≤ 63 := by rcases hspec with h | h <;> omega
  obtain ⟨s', h1, h2, h3, h4⟩ := runs_storeInt (E := E) (n := clz 63 X) h (by omega)
  refine ⟨_, clz 63 X, rfl, ?_, s', _, _, ?_, h2, h3, h4⟩
  · rcases hspec with h | h
    · exact Or.inl h
    · exact Or.inr h.2
  · unfold head0Instrs
    refine Runs.steps (is := globalGet globMemPtr :: loadLocal x ++ [unop .t64 .clz, c64 1, b64 .sub]) (by rfl) ?_ h1
    rcases s with ⟨m, pg, g, l, st⟩
    have hg : g 0 = .i32 p := h.gmp
    simp only [List.cons_append]
    rw [st_gget, steps_loadLocal h hx, st_un64, st_c64, st_sub64, st_nil]
    simp only [globMemPtr, hg, evalUn, hc]
    rw [show (clz 63 X + 1 + 2 ^ 64 - 1) % 2 ^ 64 = clz 63 X by omega]

/-! ## Operations with an integer result and a branch -/

theorem boolVal_eq (b : Bool) : boolVal b = .i32 (if b then 1 else 0) := rfl

/-- Code of the shape: address, test, conditional leaving one integer, store. -/
theorem ifteInt_ok {pre a b : List Instr} {t : Bool} {n : Nat} (h : Ready s p) (hn : n < 2 ^ 64)
    (hs : (globalGet globMemPtr :: pre).all Instr.simple = true)
    (hpre : steps E (globalGet globMemPtr :: pre) s = some ⟨s.mem, s.pages, s.globals, s.locals, boolVal t :: .i32 p :: s.stack⟩)
    (hs' : (if t then a else b).all Instr.simple = true)
    (hbr : steps E (if t then a else b) ⟨s.mem, s.pages, s.globals, s.locals, []⟩ =
      some ⟨s.mem, s.pages, s.globals, s.locals, [.i64 n]⟩) :
    Computes E (globalGet globMemPtr :: pre ++ ([ifte [.t64] a b, store .t64 0, globalGet globMemPtr] ++ incMemPtr 8)) s p
      (IsInt · · · · n) := by
  obtain ⟨s', h1, h2, h3, h4⟩ := runs_storeInt (E := E) (n := n) h hn
  refine ⟨s', _, _, Runs.steps hs hpre ?_, h2, h3, h4⟩
  refine Runs.ite (c := if t then 1 else 0) rfl (s' := ⟨s.mem, s.pages, s.globals, s.locals, [.i64 n]⟩) ?_ h1
  have : (if (if t then 1 else 0) = 0 then b else a) = (if t then a else b) := by cases t <;> rfl
  rw [this]
  exact Runs.straight hs' hbr

theorem ifte_simple {t : Bool} {a b : List Instr} (ha : a.all Instr.simple = true) (hb : b.all Instr.simple = true) :
    (if t then a else b).all Instr.simple = true := by cases t <;> assumption

theorem simple_load (i : Nat) : (loadLocal i).all Instr.simple = true := rfl

theorem C09_div (h : Ready s p) (hx : Arg s p x X) (hy : Arg s p y Y) :
    ∃ is, translatePrimop .div [x, y] = some is ∧ Computes E is s p (IsInt · · · · (Uint63.div X Y)) := by
  have hX := hx.1
  refine ⟨_, rfl, ?_⟩
  have hlt : Uint63.div X Y < 2 ^ 64 := lt_of_le_of_lt (Nat.div_le_self X Y) (by omega)
  have := ifteInt_ok (E := E) (pre := loadLocal y ++ [eqz .t64]) (a := [c64 0])
    (b := loadLocal x ++ (loadLocal y ++ [b64 .divU])) (t := decide (Y = 0)) h hlt rfl ?_ ?_ ?_
  · simpa only [divInstrs, List.cons_append, List.append_assoc, List.nil_append] using this
  · rcases s with ⟨m, pg, g, l, st⟩
    have hg : g 0 = .i32 p := h.gmp
    rw [st_gget, steps_loadLocal h hy, st_eqz64, st_nil]
    simp only [globMemPtr, hg]
  · exact ifte_simple rfl rfl
  · by_cases hY : Y = 0
    · simp only [hY, decide_true, if_true, st_c64, st_nil, Uint63.div, Nat.div_zero]
    · simp only [hY, decide_false]
      rw [if_neg (by decide), steps_loadLocal h hx, steps_loadLocal h hy, st_bin64 (r := X / Y) (by simp only [evalBin]; rw [if_neg hY]), st_nil]
      rfl

theorem C09_mod (h : Ready s p) (hx : Arg s p x X) (hy : Arg s p y Y) :
    ∃ is, translatePrimop .mod [x, y] = some is ∧ Computes E is s p (IsInt · · · · (Uint63.mod X Y)) := by
  have hX := hx.1
  refine ⟨_, rfl, ?_⟩
  have hlt : Uint63.mod X Y < 2 ^ 64 := lt_of_le_of_lt (Nat.mod_le X Y) (by omega)
  have := ifteInt_ok (E := E) (pre := loadLocal y ++ [eqz .t64]) (a := loadLocal x)
    (b := loadLocal x ++ (loadLocal y ++ [b64 .remU])) (t := decide (Y = 0)) h hlt rfl ?_ ?_ ?_
  · simpa only [modInstrs, List.cons_append, List.append_assoc, List.nil_append] using this
  · rcases s with ⟨m, pg, g, l, st⟩
    have hg : g 0 = .i32 p := h.gmp
    rw [st_gget, steps_loadLocal h hy, st_eqz64, st_nil]
    simp only [globMemPtr, hg]
  · exact ifte_simple rfl rfl
  · by_cases hY : Y = 0
    · have := steps_loadLocal (E := E) h hx (g := s.globals) (st := []) (is := [])
      rw [List.append_nil, st_nil] at this
      simp only [hY, decide_true, if_true, this, Uint63.mod, Nat.mod_zero]
    · simp only [hY, decide_false]
      rw [if_neg (by decide), steps_loadLocal h hx, steps_loadLocal h hy, st_bin64 (r := X % Y) (by simp only [evalBin]; rw [if_neg hY]), st_nil]
      rfl

theorem C09_lsl (h : Ready s p) (hx : Arg s p x X) (hy : Arg s p y Y) :
    ∃ is, translatePrimop .lsl [x, y] = some is ∧ Computes E is s p (IsInt · · · · (Uint63.lsl X Y)) := by
  have hX := hx.1
  refine ⟨_, rfl, ?_⟩
  have hlt : Uint63.lsl X Y < 2 ^ 64 := by
    simp only [Uint63.lsl, Uint63.B]; have := Nat.mod_lt (X * 2 ^ Y) (show 0 < 2 ^ 63 by decide); omega
  have := ifteInt_ok (E := E) (pre := loadLocal y ++ [c64 63, relop .t64 .ltU])
    (a := loadLocal x ++ (loadLocal y ++ b64 .shl :: bitmask)) (b := [c64 0]) (t := decide (Y < 63)) h hlt rfl ?_ ?_ ?_
  · simpa only [shiftInstrs, List.cons_append, List.append_assoc, List.nil_append, if_true] using this
  · rcases s with ⟨m, pg, g, l, st⟩
    have hg : g 0 = .i32 p := h.gmp
    rw [st_gget, steps_loadLocal h hy, st_c64, st_rel64, st_nil]
    simp only [globMemPtr, hg, evalRel]
  · exact ifte_simple rfl rfl
  · by_cases hY : Y < 63
    · simp only [hY, decide_true, if_true]
      rw [steps_loadLocal h hx, steps_loadLocal h hy, st_shl64, bitmask, st_c64, st_and64, and_maxuint63, st_nil]
      rw [Nat.mod_eq_of_lt (show Y < 64 by omega), Nat.mod_mod_of_dvd _ (by decide : 2 ^ 63 ∣ 2 ^ 64)]
      rfl
    · simp only [hY, decide_false]
      rw [if_neg (by decide), st_c64, st_nil]
      have : 2 ^ 63 ∣ X * 2 ^ Y := Dvd.dvd.mul_left (pow_dvd_pow 2 (by omega)) X
      simp only [Uint63.lsl, Uint63.B, Nat.mod_eq_zero_of_dvd this]

theorem C09_lsr (h : Ready s p) (hx : Arg s p x X) (hy : Arg s p y Y) :
    ∃ is, translatePrimop .lsr [x, y] = some is ∧ Computes E is s p (IsInt · · · · (Uint63.lsr X Y)) := by
  have hX := hx.1
  refine ⟨_, rfl, ?_⟩
  have hlt : Uint63.lsr X Y < 2 ^ 64 := lt_of_le_of_lt (Nat.div_le_self X _) (by omega)
  have := ifteInt_ok (E := E) (pre := loadLocal y ++ [c64 63, relop .t64 .ltU])
    (a := loadLocal x ++ (loadLocal y ++ [b64 .shrU])) (b := [c64 0]) (t := decide (Y < 63)) h hlt rfl ?_ ?_ ?_
  · simpa only [shiftInstrs, List.cons_append, List.append_assoc, List.nil_append, Bool.false_eq_true, if_false] using this
  · rcases s with ⟨m, pg, g, l, st⟩
    have hg : g 0 = .i32 p := h.gmp
    rw [st_gget, steps_loadLocal h hy, st_c64, st_rel64, st_nil]
    simp only [globMemPtr, hg, evalRel]
  · exact ifte_simple rfl rfl
  · by_cases hY : Y < 63
    · simp only [hY, decide_true, if_true]
      rw [steps_loadLocal h hx, steps_loadLocal h hy, st_shrU64, st_nil]
      rw [Nat.mod_eq_of_lt (show Y < 64 by omega)]
      rfl
    · simp only [hY, decide_false]
      rw [if_neg (by decide), st_c64, st_nil]
      have : X < 2 ^ Y := lt_of_lt_of_le hX (Nat.pow_le_pow_right (by decide) (by omega))
      simp only [Uint63.lsr, Nat.div_eq_of_lt this]

theorem C09_tail0 (h : Ready s p) (hx : Arg s p x X) :
    ∃ is n, translatePrimop .tail0 [x] = some is ∧ Uint63.IsTail0 X n ∧ Computes E is s p (IsInt · · · · n) := by
  have hX := hx.1
  refine ⟨_, if X = 0 then 63 else ctz 64 X, rfl, ?_, ?_⟩
  · split
    · left; exact ⟨by assumption, rfl⟩
    · obtain ⟨k, hk, _⟩ := ctz_spec 64 X (by omega) (by assumption)
      right; exact ⟨k, hk⟩
  have hlt : (if X = 0 then 63 else ctz 64 X) < 2 ^ 64 := by
    split
    · decide
    · obtain ⟨k, _, hk⟩ := ctz_spec 64 X (by omega) (by assumption)
      omega
  have := ifteInt_ok (E := E) (pre := loadLocal x ++ [eqz .t64]) (a := [c64 63])
    (b := loadLocal x ++ [unop .t64 .ctz]) (t := decide (X = 0)) h hlt rfl ?_ ?_ ?_
  · simpa only [tail0Instrs, List.cons_append, List.append_assoc, List.nil_append] using this
  · rcases s with ⟨m, pg, g, l, st⟩
    have hg : g 0 = .i32 p := h.gmp
    rw [st_gget, steps_loadLocal h hx, st_eqz64, st_nil]
    simp only [globMemPtr, hg]
  · exact ifte_simple rfl rfl
  · by_cases hY : X = 0
    · simp only [hY, decide_true, if_true, st_c64, st_nil]
    · simp only [hY, decide_false]
      rw [if_neg (by decide), steps_loadLocal h hx, st_un64, st_nil]
      simp only [if_false, evalUn]

theorem C09_addmuldiv (h : Ready s p) (hp : Arg s p z Z) (hx : Arg s p x X) (hy : Arg s p y Y) :
    ∃ is, translatePrimop .addmuldiv [z, x, y] = some is ∧
      Computes E is s p (IsInt · · · · (Uint63.addmuldiv Z X Y)) := by
  have hX := hx.1; have hY := hy.1; have hZ := hp.1
  refine ⟨_, rfl, ?_⟩
  have hlt : Uint63.addmuldiv Z X Y < 2 ^ 64 := by
    simp only [Uint63.addmuldiv, Uint63.B]
    split
    · have := Nat.mod_lt (X * 2 ^ Z + Y / 2 ^ (63 - Z)) (show 0 < 2 ^ 63 by decide); omega
    · decide
  have := ifteInt_ok (E := E) (pre := loadLocal z ++ [c64 63, relop .t64 .gtU]) (a := [c64 0])
    (b := loadLocal x ++ (loadLocal z ++ b64 .shl :: (loadLocal y ++ c64 63 :: (loadLocal z ++
      [b64 .sub, b64 .shrU, b64 .or, c64 maxuint63, b64 .and])))) (t := decide (63 < Z)) h hlt rfl ?_ ?_ ?_
  · simpa only [addmuldivInstrs, List.cons_append, List.append_assoc, List.nil_append] using this
  · rcases s with ⟨m, pg, g, l, st⟩
    have hg : g 0 = .i32 p := h.gmp
    rw [st_gget, steps_loadLocal h hp, st_c64, st_rel64, st_nil]
    simp only [globMemPtr, hg, evalRel]
  · exact ifte_simple rfl rfl
  · by_cases hZ' : 63 < Z
    · simp only [hZ', decide_true, if_true, st_c64, st_nil, Uint63.addmuldiv, if_neg (show ¬ Z ≤ 63 by omega)]
    · simp only [hZ', decide_false]
      rw [if_neg (by decide), steps_loadLocal h hx, steps_loadLocal h hp, st_shl64, steps_loadLocal h hy, st_c64,
        steps_loadLocal h hp, st_sub64, st_shrU64, st_or64, st_c64, st_and64, and_maxuint63, st_nil]
      rw [Nat.mod_eq_of_lt (show Z < 64 by omega), show (63 + 2 ^ 64 - Z) % 2 ^ 64 = 63 - Z by omega,
        Nat.mod_eq_of_lt (show 63 - Z < 64 by omega)]
      simp only [Uint63.addmuldiv, if_pos (show Z ≤ 63 by omega), Uint63.B]
      have hlow : Y / 2 ^ (63 - Z) < 2 ^ Z := by
        rw [Nat.div_lt_iff_lt_mul (by positivity), ← pow_add, show Z + (63 - Z) = 63 by omega]; exact hY
      have e1 : X * 2 ^ Z % 2 ^ 64 = X % 2 ^ (64 - Z) * 2 ^ Z := by
        rw [show (2:Nat) ^ 64 = 2 ^ (64 - Z) * 2 ^ Z by rw [← pow_add]; congr 1; omega, Nat.mul_mod_mul_right]
      rw [e1, Nat.or_comm, Int63.nat_or_eq_add hlow, ← e1, Nat.add_comm, Nat.add_mod, Nat.mod_mod_of_dvd _ (by decide : 2 ^ 63 ∣ 2 ^ 64), ← Nat.add_mod]

/-! ## Comparisons -/

theorem frame_refl (h : Ready s p) (st : List Val) : Frame s { s with stack := st } p p :=
  ⟨fun _ _ => rfl, rfl, rfl, rfl, rfl, h.gmp, h.aligned, by omega, by omega⟩

theorem boolCompare_ok {op : Rel} (h : Ready s p) (hx : Arg s p x X) (hy : Arg s p y Y) :
    Computes E (boolCompare x y op) s p fun _ _ _ v => IsBool v (evalRel 64 op X Y) := by
  refine ⟨{ s with stack := .i32 (2 * (if evalRel 64 op X Y then 1 else 0) + 1) :: s.stack }, _, p, ?_, rfl, frame_refl h _, rfl⟩
  have e : boolCompare x y op = (loadLocal x ++ (loadLocal y ++ [relop .t64 op])) ++ [ifte [.t32] [c32 (2 * trueOrd + 1)] [c32 (2 * falseOrd + 1)]] := by
    simp [boolCompare]
  rw [e]
  refine Runs.steps rfl (s' := ⟨s.mem, s.pages, s.globals, s.locals, boolVal (evalRel 64 op X Y) :: s.stack⟩) ?_ ?_
  · have := steps_loadLocal (E := E) h hx (g := s.globals) (st := s.stack) (is := loadLocal y ++ [relop .t64 op])
    rw [this, steps_loadLocal h hy, st_rel64, st_nil]
  · cases evalRel 64 op X Y
    · exact Runs.ite (c := 0) rfl (Runs.straight rfl rfl) (Runs.nil _ _)
    · exact Runs.ite (c := 1) rfl (Runs.straight rfl rfl) (Runs.nil _ _)

theorem C09_eqb (h : Ready s p) (hx : Arg s p x X) (hy : Arg s p y Y) :
    ∃ is, translatePrimop .eqb [x, y] = some is ∧ Computes E is s p fun _ _ _ v => IsBool v (decide (X = Y)) :=
  ⟨_, rfl, boolCompare_ok h hx hy⟩

theorem C09_ltb (h : Ready s p) (hx : Arg s p x X) (hy : Arg s p y Y) :
    ∃ is, translatePrimop .ltb [x, y] = some is ∧ Computes E is s p fun _ _ _ v => IsBool v (decide (X < Y)) :=
  ⟨_, rfl, boolCompare_ok h hx hy⟩

theorem C09_leb (h : Ready s p) (hx : Arg s p x X) (hy : Arg s p y Y) :
    ∃ is, translatePrimop .leb [x, y] = some is ∧ Computes E is s p fun _ _ _ v => IsBool v (decide (X ≤ Y)) :=
  ⟨_, rfl, boolCompare_ok h hx hy⟩

theorem C09_compare (h : Ready s p) (hx : Arg s p x X) (hy : Arg s p y Y) :
    ∃ is, translatePrimop .compare [x, y] = some is ∧
      Computes E is s p fun _ _ _ v => IsCmp v (Uint63.compareInt X Y) := by
  refine ⟨_, rfl, ?_⟩
  have e : compareInstrs x y = (loadLocal x ++ (loadLocal y ++ [relop .t64 .ltU])) ++ [ifte [.t32] [c32 (2 * ltOrd + 1)]
     ((loadLocal x ++ (loadLocal y ++ [relop .t64 .eq])) ++ [ifte [.t32] [c32 (2 * eqOrd + 1)] [c32 (2 * gtOrd + 1)]])] := by
    simp [compareInstrs]
  have l1 : ∀ op st, steps E (loadLocal x ++ (loadLocal y ++ [relop .t64 op])) ⟨s.mem, s.pages, s.globals, s.locals, st⟩ =
      some ⟨s.mem, s.pages, s.globals, s.locals, boolVal (evalRel 64 op X Y) :: st⟩ := by
    intro op st
    rw [steps_loadLocal h hx, steps_loadLocal h hy, st_rel64, st_nil]
  have key : ∀ o : Nat, (o = if X < Y then 3 else if X = Y then 1 else 5) →
      Runs E (compareInstrs x y) s (.ok { s with stack := .i32 o :: s.stack }) := by
    intro o ho
    rw [e]
    refine Runs.steps rfl (l1 .ltU s.stack) ?_
    by_cases hlt : X < Y
    · rw [if_pos hlt] at ho; subst ho
      refine Runs.ite (c := 1) (by simp [evalRel, hlt, boolVal]) (Runs.straight rfl rfl) (Runs.nil _ _)
    · rw [if_neg hlt] at ho
      refine Runs.ite (c := 0) (by simp [evalRel, hlt, boolVal]) (s' := ⟨s.mem, s.pages, s.globals, s.locals, [.i32 o]⟩) ?_ (Runs.nil _ _)
      rw [if_pos rfl]
      refine Runs.steps rfl (l1 .eq []) ?_
      by_cases heq : X = Y
      · rw [if_pos heq] at ho; subst ho
        exact Runs.ite (c := 1) (by simp [evalRel, heq, boolVal]) (Runs.straight rfl rfl) (Runs.nil _ _)
      · rw [if_neg heq] at ho; subst ho
        exact Runs.ite (c := 0) (by simp [evalRel, heq, boolVal]) (Runs.straight rfl rfl) (Runs.nil _ _)
  refine ⟨_, _, p, key _ rfl, rfl, frame_refl h _, ?_⟩
  unfold Uint63.compareInt
  by_cases heq : X = Y
  · subst heq; simp [IsCmp, IsUnboxed]
  · by_cases hlt : X < Y
    · rw [if_neg (by omega), if_pos (by omega), if_pos hlt]; rfl
    · rw [if_neg (by omega), if_neg (by omega), if_neg hlt, if_neg heq]; rfl

end
end Wasm
