import Verif.Wasm.SemLemmas
import Verif.Wasm.PrimModel
import Verif.Wasm.PrimSpec
import Verif.Int63.Lemmas

/-! # Symbolic execution of the integer primitives -/

namespace Wasm
open Instr

theorem and_maxuint63 (n : Nat) : n &&& maxuint63 = n % 2 ^ 63 := Nat.and_two_pow_sub_one_eq_mod n 63
theorem and_low32 (n : Nat) : n &&& 4294967295 = n % 2 ^ 32 := Nat.and_two_pow_sub_one_eq_mod n 32

section
variable {E : Env} {m : Mem} {pg : Nat} {g : Nat → Val} {l st : List Val} {is : List Instr} {a n k off : Nat}

theorem st_nil (s : St) : steps E [] s = some s := Eq.trans rfl rfl
theorem st_gget {i : Nat} : steps E (globalGet i :: is) ⟨m, pg, g, l, st⟩ = steps E is ⟨m, pg, g, l, g i :: st⟩ := Eq.trans rfl rfl
theorem st_gset {i : Nat} {v : Val} :
    steps E (globalSet i :: is) ⟨m, pg, g, l, v :: st⟩ = steps E is ⟨m, pg, setGlobal g i v, l, st⟩ := Eq.trans rfl rfl
theorem st_c32 : steps E (c32 n :: is) ⟨m, pg, g, l, st⟩ = steps E is ⟨m, pg, g, l, .i32 n :: st⟩ := Eq.trans rfl rfl
theorem st_c64 : steps E (c64 n :: is) ⟨m, pg, g, l, st⟩ = steps E is ⟨m, pg, g, l, .i64 n :: st⟩ := Eq.trans rfl rfl
theorem st_lget {i : Nat} {v : Val} (h : l[i]? = some v) :
    steps E (localGet i :: is) ⟨m, pg, g, l, st⟩ = steps E is ⟨m, pg, g, l, v :: st⟩ := by
  rw [steps, step]; simp [h]
theorem st_lset {i : Nat} {v : Val} (h : i < l.length) :
    steps E (localSet i :: is) ⟨m, pg, g, l, v :: st⟩ = steps E is ⟨m, pg, g, l.set i v, st⟩ := by
  change (if i < l.length then some (⟨m, pg, g, l.set i v, st⟩ : St) else none).bind _ = _
  rw [if_pos h]; rfl
theorem st_load32 (h : a + off + 4 ≤ pg * pageSize) :
    steps E (load .t32 off :: is) ⟨m, pg, g, l, .i32 a :: st⟩ = steps E is ⟨m, pg, g, l, .i32 (loadN m (a + off) 4) :: st⟩ := by
  change (if a + off + 4 ≤ pg * pageSize then some (⟨m, pg, g, l, .i32 (loadN m (a + off) 4) :: st⟩ : St) else none).bind _ = _
  rw [if_pos h]; rfl
theorem st_load64 (h : a + off + 8 ≤ pg * pageSize) :
    steps E (load .t64 off :: is) ⟨m, pg, g, l, .i32 a :: st⟩ = steps E is ⟨m, pg, g, l, .i64 (loadN m (a + off) 8) :: st⟩ := by
  change (if a + off + 8 ≤ pg * pageSize then some (⟨m, pg, g, l, .i64 (loadN m (a + off) 8) :: st⟩ : St) else none).bind _ = _
  rw [if_pos h]; rfl
theorem st_store32 (h : a + off + 4 ≤ pg * pageSize) :
    steps E (store .t32 off :: is) ⟨m, pg, g, l, .i32 n :: .i32 a :: st⟩ = steps E is ⟨storeN m (a + off) 4 n, pg, g, l, st⟩ := by
  change (if a + off + 4 ≤ pg * pageSize then some (⟨storeN m (a + off) 4 n, pg, g, l, st⟩ : St) else none).bind _ = _
  rw [if_pos h]; rfl
theorem st_store64 (h : a + off + 8 ≤ pg * pageSize) :
    steps E (store .t64 off :: is) ⟨m, pg, g, l, .i64 n :: .i32 a :: st⟩ = steps E is ⟨storeN m (a + off) 8 n, pg, g, l, st⟩ := by
  change (if a + off + 8 ≤ pg * pageSize then some (⟨storeN m (a + off) 8 n, pg, g, l, st⟩ : St) else none).bind _ = _
  rw [if_pos h]; rfl
theorem st_bin32 {op : Bin} {r : Nat} (h : evalBin 32 op a n = some r) :
    steps E (binop .t32 op :: is) ⟨m, pg, g, l, .i32 n :: .i32 a :: st⟩ = steps E is ⟨m, pg, g, l, .i32 r :: st⟩ := by
  change ((evalBin 32 op a n).bind fun r => some (⟨m, pg, g, l, .i32 r :: st⟩ : St)).bind _ = _
  rw [h]; rfl
theorem evalBin_add32 (h : a + n < 2 ^ 32) : evalBin 32 .add a n = some (a + n) := by
  unfold evalBin; simp only; rw [Nat.mod_eq_of_lt h]
theorem st_add32 (h : a + n < 2 ^ 32) :
    steps E (binop .t32 .add :: is) ⟨m, pg, g, l, .i32 n :: .i32 a :: st⟩ = steps E is ⟨m, pg, g, l, .i32 (a + n) :: st⟩ := by
  exact st_bin32 (evalBin_add32 h)
theorem st_bin64 {op : Bin} {r : Nat} (h : evalBin 64 op a n = some r) :
    steps E (b64 op :: is) ⟨m, pg, g, l, .i64 n :: .i64 a :: st⟩ = steps E is ⟨m, pg, g, l, .i64 r :: st⟩ := by
  change ((evalBin 64 op a n).bind fun r => some (⟨m, pg, g, l, .i64 r :: st⟩ : St)).bind _ = _
  rw [h]; rfl
theorem st_add64 : steps E (b64 .add :: is) ⟨m, pg, g, l, .i64 n :: .i64 a :: st⟩ =
    steps E is ⟨m, pg, g, l, .i64 ((a + n) % 2 ^ 64) :: st⟩ := st_bin64 (by simp only [evalBin])
theorem st_sub64 : steps E (b64 .sub :: is) ⟨m, pg, g, l, .i64 n :: .i64 a :: st⟩ =
    steps E is ⟨m, pg, g, l, .i64 ((a + 2 ^ 64 - n) % 2 ^ 64) :: st⟩ := st_bin64 (by simp only [evalBin])
theorem st_mul64 : steps E (b64 .mul :: is) ⟨m, pg, g, l, .i64 n :: .i64 a :: st⟩ =
    steps E is ⟨m, pg, g, l, .i64 ((a * n) % 2 ^ 64) :: st⟩ := st_bin64 (by simp only [evalBin])
theorem st_and64 : steps E (b64 .and :: is) ⟨m, pg, g, l, .i64 n :: .i64 a :: st⟩ =
    steps E is ⟨m, pg, g, l, .i64 (a &&& n) :: st⟩ := st_bin64 (by simp only [evalBin])
theorem st_or64 : steps E (b64 .or :: is) ⟨m, pg, g, l, .i64 n :: .i64 a :: st⟩ =
    steps E is ⟨m, pg, g, l, .i64 (a ||| n) :: st⟩ := st_bin64 (by simp only [evalBin])
theorem st_xor64 : steps E (b64 .xor :: is) ⟨m, pg, g, l, .i64 n :: .i64 a :: st⟩ =
    steps E is ⟨m, pg, g, l, .i64 (a ^^^ n) :: st⟩ := st_bin64 (by simp only [evalBin])
theorem st_shl64 : steps E (b64 .shl :: is) ⟨m, pg, g, l, .i64 n :: .i64 a :: st⟩ =
    steps E is ⟨m, pg, g, l, .i64 (a * 2 ^ (n % 64) % 2 ^ 64) :: st⟩ := st_bin64 (by simp only [evalBin])
theorem st_shrU64 : steps E (b64 .shrU :: is) ⟨m, pg, g, l, .i64 n :: .i64 a :: st⟩ =
    steps E is ⟨m, pg, g, l, .i64 (a / 2 ^ (n % 64)) :: st⟩ := st_bin64 (by simp only [evalBin])
theorem st_rel64 {op : Rel} :
    steps E (relop .t64 op :: is) ⟨m, pg, g, l, .i64 n :: .i64 a :: st⟩ =
      steps E is ⟨m, pg, g, l, boolVal (evalRel 64 op a n) :: st⟩ := Eq.trans rfl rfl
theorem st_rel32 {op : Rel} :
    steps E (relop .t32 op :: is) ⟨m, pg, g, l, .i32 n :: .i32 a :: st⟩ =
      steps E is ⟨m, pg, g, l, boolVal (evalRel 32 op a n) :: st⟩ := Eq.trans rfl rfl
theorem st_eqz64 : steps E (eqz .t64 :: is) ⟨m, pg, g, l, .i64 a :: st⟩ =
      steps E is ⟨m, pg, g, l, boolVal (decide (a = 0)) :: st⟩ := Eq.trans rfl rfl
theorem st_un64 {op : Un} : steps E (unop .t64 op :: is) ⟨m, pg, g, l, .i64 a :: st⟩ =
      steps E is ⟨m, pg, g, l, .i64 (evalUn 64 op a) :: st⟩ := Eq.trans rfl rfl
end

/-- Loading an integer argument. -/
theorem steps_loadLocal {E : Env} {s : St} {p i n : Nat} (h : Ready s p) (ha : Arg s p i n)
    {g : Nat → Val} {st : List Val} {is : List Instr} :
    steps E (loadLocal i ++ is) ⟨s.mem, s.pages, g, s.locals, st⟩ =
      steps E is ⟨s.mem, s.pages, g, s.locals, .i64 n :: st⟩ := by
  obtain ⟨_, a, h1, h2, h3⟩ := ha
  have := h.room
  simp only [loadLocal, List.cons_append, List.nil_append]
  rw [st_lget h1, st_load64 (by omega), Nat.add_zero, h3]

/-- The common end of the operations with an integer result. -/
theorem runs_storeInt {E : Env} {s : St} {p n : Nat} (h : Ready s p) (hn : n < 2 ^ 64) :
    ∃ s', Runs E ([store .t64 0, globalGet globMemPtr] ++ incMemPtr 8)
        ⟨s.mem, s.pages, s.globals, s.locals, .i64 n :: .i32 p :: s.stack⟩ (.ok s') ∧ s'.stack = .i32 p :: s.stack ∧
      Frame s s' p (p + 8) ∧ IsInt s'.mem p (p + 8) (.i32 p) n := by
  have hr := h.room; have hs := h.small; have ha := h.aligned; have hgm := h.gmp
  refine ⟨⟨storeN s.mem p 8 n, s.pages, setGlobal s.globals 0 (.i32 (p + 8)), s.locals, .i32 p :: s.stack⟩, ?_, rfl, ?_, ?_⟩
  · apply Runs.straight rfl
    simp only [incMemPtr, List.cons_append, List.nil_append, globMemPtr]
    rw [st_store64 (by omega), st_gget, st_gget, hgm, st_c32, st_add32 (by omega), st_gset, st_nil, Nat.add_zero]
  · refine ⟨?_, rfl, rfl, rfl, rfl, rfl, by omega, by omega, by omega⟩
    intro b hb
    simp only [storeN]
    rw [if_neg (by omega)]
  · exact ⟨p, rfl, ha, by omega, by omega, loadN8_store _ _ _ hn⟩

theorem setGlobal_same (g : Nat → Val) (i : Nat) (v : Val) : setGlobal g i v i = v := if_pos rfl
theorem setGlobal_other (g : Nat → Val) {i j : Nat} (v : Val) (h : j ≠ i) : setGlobal g i v j = g j := if_neg h

/-- States that agree except for the stack and the temporaries. -/
structure Sim (s s1 : St) : Prop where
  mem : s1.mem = s.mem
  pages : s1.pages = s.pages
  locals : s1.locals = s.locals
  g0 : s1.globals 0 = s.globals 0
  g2 : s1.globals 2 = s.globals 2
  g3 : s1.globals 3 = s.globals 3

theorem Sim.refl (s : St) : Sim s s := ⟨rfl, rfl, rfl, rfl, rfl, rfl⟩
theorem Sim.stack {s s1 : St} (h : Sim s s1) (st : List Val) : Sim s { s1 with stack := st } := ⟨h.1, h.2, h.3, h.4, h.5, h.6⟩
theorem Sim.global {s s1 : St} (h : Sim s s1) {i : Nat} (hi : i ≠ 0 ∧ i ≠ 2 ∧ i ≠ 3) (v : Val) (st : List Val) :
    Sim s { s1 with globals := setGlobal s1.globals i v, stack := st } := by
  obtain ⟨h0, h2, h3⟩ := hi
  refine ⟨h.1, h.2, h.3, ?_, ?_, ?_⟩
  · exact (setGlobal_other _ _ (Ne.symm h0)).trans h.4
  · exact (setGlobal_other _ _ (Ne.symm h2)).trans h.5
  · exact (setGlobal_other _ _ (Ne.symm h3)).trans h.6

theorem runs_makeCarry {E : Env} {s : St} {p n ord g : Nat} (h : Ready s p) (hn : n < 2 ^ 64) (ho : ord < 2 ^ 32) {s1 : St}
    (hs : Sim s s1) (hg : s1.globals g = .i64 n) (hst : s1.stack = []) :
    ∃ s', Runs E (makeCarry ord g) s1 (.ok s') ∧ s'.stack = [.i32 (p + 8)] ∧ Frame s s' p (p + 16) ∧
      IsBlock s'.mem p (p + 16) (.i32 (p + 8)) ord [.i32 p] ∧ IsInt s'.mem p (p + 16) (.i32 p) n := by
  have hr := h.room; have hsm := h.small; have ha := h.aligned; have hgm := h.gmp
  have hgm1 : s1.globals 0 = .i32 p := hs.g0.trans hgm
  let m1 := storeN s.mem p 8 n
  let m2 := storeN m1 (p + 8) 4 ord
  let m3 := storeN m2 (p + 12) 4 p
  refine ⟨{ s1 with mem := m3, globals := setGlobal s1.globals 0 (.i32 (p + 16)), stack := [.i32 (p + 8)] }, ?_, rfl, ?_, ?_, ?_⟩
  · apply Runs.straight rfl
    rcases s1 with ⟨m, pg, g1, l, st⟩
    obtain ⟨rfl, rfl, rfl, _, _, _⟩ := hs
    simp only at hgm1 hg hst
    simp only [makeCarry, incMemPtr, List.cons_append, List.nil_append, globMemPtr, hst]
    rw [st_gget, st_gget, hgm1, hg, st_store64 (by omega), st_gget, st_c32, hgm1, st_store32 (by omega), st_gget, st_gget,
      hgm1, st_store32 (by omega), st_gget, st_c32, hgm1, st_add32 (by omega), st_gget, hgm1, st_c32, st_add32 (by omega),
      st_gset, st_nil, Nat.add_zero]
  · refine ⟨?_, hs.pages, hs.locals, ?_, ?_, rfl, by omega, by omega, by omega⟩
    · intro b hb
      simp only [m3, m2, m1, storeN]
      rw [if_neg (by omega), if_neg (by omega), if_neg (by omega)]
    · exact hs.g2
    · exact hs.g3
  · refine ⟨p + 8, rfl, by omega, by omega, by simp only [List.length_singleton]; omega, ?_, ?_⟩
    · simp only [m3]
      rw [loadN_store_disjoint _ _ _ _ _ _ (by omega)]
      exact loadN4_store _ _ _ ho
    · intro i w hi
      rcases i with _ | i
      · simp only [List.getElem?_cons_zero, Option.some.injEq, Val.i32.injEq] at hi
        subst hi
        exact loadN4_store _ _ _ (by omega)
      · simp at hi
  · refine ⟨p, rfl, ha, by omega, by omega, ?_⟩
    simp only [m3, m2]
    rw [loadN_store_disjoint _ _ _ _ _ _ (by omega), loadN_store_disjoint _ _ _ _ _ _ (by omega)]
    exact loadN8_store _ _ _ hn

theorem runs_makeProduct {E : Env} {s : St} {p n1 n2 g1 g2 : Nat} (h : Ready s p) (hn1 : n1 < 2 ^ 64) (hn2 : n2 < 2 ^ 64) {s1 : St}
    (hs : Sim s s1) (hg1 : s1.globals g1 = .i64 n1) (hg2 : s1.globals g2 = .i64 n2) :
    ∃ s', Runs E (makeProduct g1 g2) s1 (.ok s') ∧ s'.stack = .i32 (p + 16) :: s1.stack ∧ Frame s s' p (p + 28) ∧
      IsPair s'.mem p (p + 28) (.i32 (p + 16)) (n1, n2) := by
  have hr := h.room; have hsm := h.small; have ha := h.aligned; have hgm := h.gmp
  have hgm1 : s1.globals 0 = .i32 p := hs.g0.trans hgm
  let m1 := storeN s.mem p 8 n1
  let m2 := storeN m1 (p + 8) 8 n2
  let m3 := storeN m2 (p + 16) 4 0
  let m4 := storeN m3 (p + 20) 4 p
  let m5 := storeN m4 (p + 24) 4 (p + 8)
  refine ⟨{ s1 with mem := m5, globals := setGlobal s1.globals 0 (.i32 (p + 28)), stack := .i32 (p + 16) :: s1.stack }, ?_, rfl, ?_, ?_⟩
  · apply Runs.straight rfl
    rcases s1 with ⟨m, pg, g, l, st⟩
    obtain ⟨rfl, rfl, rfl, _, _, _⟩ := hs
    simp only at hgm1 hg1 hg2
    simp only [makeProduct, incMemPtr, List.cons_append, List.nil_append, globMemPtr, pairOrd]
    rw [st_gget, st_gget, hgm1, hg1, st_store64 (by omega), st_gget, st_gget, hgm1, hg2, st_store64 (by omega), st_gget, st_c32, hgm1,
      st_store32 (by omega), st_gget, st_gget, hgm1, st_store32 (by omega), st_gget, st_gget, hgm1, st_c32, st_add32 (by omega),
      st_store32 (by omega), st_gget, st_c32, hgm1, st_add32 (by omega), st_gget, hgm1, st_c32, st_add32 (by omega),
      st_gset, st_nil, Nat.add_zero]
  · refine ⟨?_, hs.pages, hs.locals, ?_, ?_, rfl, by omega, by omega, by omega⟩
    · intro b hb
      simp only [m5, m4, m3, m2, m1, storeN]
      rw [if_neg (by omega), if_neg (by omega), if_neg (by omega), if_neg (by omega), if_neg (by omega)]
    · exact hs.g2
    · exact hs.g3
  · refine ⟨.i32 p, .i32 (p + 8), ⟨p + 16, rfl, by omega, by omega, by simp only [List.length_cons, List.length_nil]; omega, ?_, ?_⟩,
      ⟨p, rfl, ha, by omega, by omega, ?_⟩, ⟨p + 8, rfl, by omega, by omega, by omega, ?_⟩⟩
    · simp only [m5, m4]
      rw [loadN_store_disjoint _ _ _ _ _ _ (by omega), loadN_store_disjoint _ _ _ _ _ _ (by omega)]
      exact loadN4_store _ _ _ (by omega)
    · intro i w hi
      rcases i with _ | _ | i
      · simp only [List.getElem?_cons_zero, Option.some.injEq, Val.i32.injEq] at hi
        subst hi
        simp only [m5]
        rw [loadN_store_disjoint _ _ _ _ _ _ (by omega)]
        exact loadN4_store _ _ _ (by omega)
      · simp only [List.getElem?_cons_succ, List.getElem?_cons_zero, Option.some.injEq, Val.i32.injEq] at hi
        subst hi
        exact loadN4_store _ _ _ (by omega)
      · simp at hi
    · simp only [m5, m4, m3, m2]
      rw [loadN_store_disjoint _ _ _ _ _ _ (by omega), loadN_store_disjoint _ _ _ _ _ _ (by omega),
        loadN_store_disjoint _ _ _ _ _ _ (by omega), loadN_store_disjoint _ _ _ _ _ _ (by omega)]
      exact loadN8_store _ _ _ hn1
    · simp only [m5, m4, m3]
      rw [loadN_store_disjoint _ _ _ _ _ _ (by omega), loadN_store_disjoint _ _ _ _ _ _ (by omega),
        loadN_store_disjoint _ _ _ _ _ _ (by omega)]
      exact loadN8_store _ _ _ hn2

end Wasm
