import Verif.Wasm.PrimPropsWide
import Verif.Wasm.PrimProps
import Verif.Wasm.GenLemmas

/-! # Integer operations inside compiled programs -/

namespace Wasm
open Instr

variable {E : Env} {cenv : CEnv} {B : ANF.Defs} {s : St} {p : Nat} {is : List Instr}

/-- The code computes a representation of `v`. -/
def PrimRuns (E : Env) (cenv : CEnv) (B : ANF.Defs) (is : List Instr) (s : St) (p : Nat) (v : ANF.Val) : Prop :=
  ∃ s' w p', Runs E is s (.ok s') ∧ s'.stack = .i32 w :: s.stack ∧ Frame s s' p p' ∧ Rep cenv B s'.mem p' v w

theorem IsInt.rep {m : Mem} {bot top n : Nat} {v : Val} (h : IsInt m bot top v n) (hn : n < 2 ^ 63) :
    ∃ w, v = .i32 w ∧ Rep cenv B m top (.prim (.int n)) w := by
  obtain ⟨a, rfl, h1, _, h3, h4⟩ := h
  exact ⟨a, rfl, .int hn h1 h3 h4⟩

theorem prim_int {n : Nat} {v : ANF.FO} (h : Computes E is s p (IsInt · · · · n)) (hv : Encodes cenv (.int n) v) :
    PrimRuns E cenv B is s p v.toVal := by
  obtain ⟨hn, rfl⟩ := hv
  obtain ⟨s', v, p', h1, h2, h3, h4⟩ := h
  obtain ⟨w, rfl, h5⟩ := h4.rep hn
  exact ⟨s', w, p', h1, h2, h3, h5⟩

theorem prim_unboxed {t : ANF.Tag} {ord : Nat} (ho : ord < 3) (h : Computes E is s p fun _ _ _ v => IsUnboxed v ord)
    (hv : HasCtor cenv t 0 ord) : PrimRuns E cenv B is s p (.constr t []) := by
  obtain ⟨i, h5, h6, rfl⟩ := hv
  obtain ⟨s', v, p', h1, h2, h3, h4⟩ := h
  rw [IsUnboxed] at h4
  subst h4
  exact ⟨s', _, p', h1, h2, h3, .unboxed h5 h6 (by omega)⟩

theorem prim_bool {b : Bool} {v : ANF.FO} (h : Computes E is s p fun _ _ _ v => IsBool v b) (hv : Encodes cenv (.bool b) v) :
    PrimRuns E cenv B is s p v.toVal := by
  obtain ⟨t, h1, rfl⟩ := hv
  exact prim_unboxed (by cases b <;> decide) h h1

theorem prim_cmp {c : Uint63.Cmp} {v : ANF.FO} (h : Computes E is s p fun _ _ _ v => IsCmp v c)
    (hv : Encodes cenv (.cmp c) v) : PrimRuns E cenv B is s p v.toVal := by
  obtain ⟨t, h1, rfl⟩ := hv
  cases c
  · exact prim_unboxed (ord := 0) (by decide) h h1
  · exact prim_unboxed (ord := 1) (by decide) h h1
  · exact prim_unboxed (ord := 2) (by decide) h h1

theorem prim_carry {c : Uint63.Carry} {v : ANF.FO} (h : Computes E is s p (IsCarry · · · · c))
    (hv : Encodes cenv (.carry c) v) : PrimRuns E cenv B is s p v.toVal := by
  obtain ⟨s', w, p', h1, h2, h3, h4⟩ := h
  have key : ∀ (t : ANF.Tag) (ord n : Nat), ord < 2 → HasCtor cenv t 1 ord → n < 2 ^ 63 →
      (∃ x, IsBlock s'.mem p p' w ord [x] ∧ IsInt s'.mem p p' x n) →
      ∃ a, w = .i32 a ∧ Rep cenv B s'.mem p' (.constr t [.prim (.int n)]) a := by
    rintro t ord n ho ⟨i, h5, h6, rfl⟩ hn ⟨x, ⟨a, rfl, b1, _, b3, b4, b5⟩, hx⟩
    obtain ⟨y, rfl, hy⟩ := hx.rep (cenv := cenv) (B := B) hn
    refine ⟨a, rfl, .boxed h5 h6 (by simp) (by omega) b1 b3 b4 ?_⟩
    intro j v hv
    cases j with
    | zero =>
      simp only [List.getElem?_cons_zero, Option.some.injEq] at hv
      subst hv
      rw [b5 0 y rfl]; exact hy
    | succ j => simp at hv
  cases c with
  | C0 n =>
    obtain ⟨t, e1, e2, rfl⟩ := hv
    obtain ⟨a, rfl, h5⟩ := key t 0 n (by decide) e1 e2 h4
    exact ⟨s', a, p', h1, h2, h3, h5⟩
  | C1 n =>
    obtain ⟨t, e1, e2, rfl⟩ := hv
    obtain ⟨a, rfl, h5⟩ := key t 1 n (by decide) e1 e2 h4
    exact ⟨s', a, p', h1, h2, h3, h5⟩

theorem prim_pair {r : Nat × Nat} {v : ANF.FO} (h : Computes E is s p (IsPair · · · · r))
    (hv : Encodes cenv (.pair r) v) : PrimRuns E cenv B is s p v.toVal := by
  obtain ⟨n, k⟩ := r
  obtain ⟨t, ⟨i, h5, h6, h7⟩, hn, hk, rfl⟩ := hv
  obtain ⟨s', w, p', h1, h2, h3, x, y, ⟨a, rfl, b1, _, b3, b4, b5⟩, hx, hy⟩ := h
  obtain ⟨x', rfl, hx'⟩ := hx.rep (cenv := cenv) (B := B) hn
  obtain ⟨y', rfl, hy'⟩ := hy.rep (cenv := cenv) (B := B) hk
  refine ⟨s', a, p', h1, h2, h3, .boxed h5 h6 (by simp [ANF.FO.toVals]) (by omega) b1 b3 (by rw [b4, h7]) ?_⟩
  intro j v hv
  match j with
  | 0 =>
    simp only [ANF.FO.toVals, List.getElem?_cons_zero, Option.some.injEq] at hv
    subst hv
    rw [b5 0 x' rfl]; exact hx'
  | 1 =>
    simp only [ANF.FO.toVals, List.getElem?_cons_zero, List.getElem?_cons_succ, Option.some.injEq] at hv
    subst hv
    rw [b5 1 y' rfl]; exact hy'
  | j + 2 => simp [ANF.FO.toVals] at hv

theorem head0_unique {x n k : Nat} (h : Uint63.IsHead0 x n) (h' : Uint63.IsHead0 x k) : n = k := by
  have key : ∀ {n k : Nat}, 2 ^ 62 ≤ x * 2 ^ n → x * 2 ^ k < 2 ^ 63 → k ≤ n := by
    intro n k h1 h2
    by_contra hlt
    have h3 : n + 1 ≤ k := by omega
    have h4 : x * 2 ^ (n + 1) ≤ x * 2 ^ k := Nat.mul_le_mul_left _ (Nat.pow_le_pow_right (by decide) h3)
    rw [pow_succ, ← Nat.mul_assoc] at h4
    omega
  rcases h with ⟨rfl, rfl⟩ | ⟨h1, h2⟩ <;> rcases h' with ⟨h3, h4⟩ | ⟨h3, h4⟩
  · exact h4.symm
  · simp at h3
  · subst h3; simp at h1
  · exact Nat.le_antisymm (key h3 h2) (key h1 h4)

theorem tail0_unique {x n k : Nat} (h : Uint63.IsTail0 x n) (h' : Uint63.IsTail0 x k) : n = k := by
  have key : ∀ {n k a b : Nat}, 2 ^ n * (2 * a + 1) = 2 ^ k * (2 * b + 1) → n ≤ k := by
    intro n k a b h
    by_contra hlt
    obtain ⟨d, rfl⟩ : ∃ d, n = k + (d + 1) := ⟨n - k - 1, by omega⟩
    rw [pow_add, mul_assoc] at h
    have h5 := Nat.eq_of_mul_eq_mul_left (Nat.two_pow_pos k) h
    rw [pow_succ] at h5
    have : 2 ^ d * 2 * (2 * a + 1) = 2 * (2 ^ d * (2 * a + 1)) := by ring
    omega
  rcases h with ⟨rfl, rfl⟩ | ⟨a, h1⟩ <;> rcases h' with ⟨h3, h4⟩ | ⟨b, h3⟩
  · exact h4.symm
  · have := Nat.two_pow_pos k
    rcases Nat.mul_eq_zero.mp h3.symm with h | h <;> omega
  · subst h3
    have := Nat.two_pow_pos n
    rcases Nat.mul_eq_zero.mp h1.symm with h | h <;> omega
  · rw [h1] at h3
    exact Nat.le_antisymm (key h3) (key h3.symm)

theorem prim_ok {op : Primop} {js ns : List Nat} {r : PRes} {v : ANF.FO} (h : Ready s p)
    (ha : List.Forall₂ (Arg s p) js ns) (hM : Means op ns r) (hv : Encodes cenv r v)
    (ht : translatePrimop op js = some is) : PrimRuns E cenv B is s p v.toVal := by
  cases ha with
  | nil => cases op <;> cases hM
  | cons a1 ha =>
  cases ha with
  | nil =>
    cases op <;> first | (cases hM; done) | skip
    · obtain ⟨n, h1, rfl⟩ := hM
      obtain ⟨is', n', h2, h3, h4⟩ := C09_head0 (E := E) h a1
      rw [ht] at h2; cases h2
      rw [head0_unique h1 h3] at hv
      exact prim_int h4 hv
    · obtain ⟨n, h1, rfl⟩ := hM
      obtain ⟨is', n', h2, h3, h4⟩ := C09_tail0 (E := E) h a1
      rw [ht] at h2; cases h2
      rw [tail0_unique h1 h3] at hv
      exact prim_int h4 hv
  | cons a2 ha =>
  cases ha with
  | nil =>
    cases op <;> first | (cases hM; done) | skip
    all_goals (simp only [Means] at hM; subst hM)
    · obtain ⟨_, h2, h3⟩ := C09_add (E := E) h a1 a2; rw [ht] at h2; cases h2; exact prim_int h3 hv
    · obtain ⟨_, h2, h3⟩ := C09_sub (E := E) h a1 a2; rw [ht] at h2; cases h2; exact prim_int h3 hv
    · obtain ⟨_, h2, h3⟩ := C09_mul (E := E) h a1 a2; rw [ht] at h2; cases h2; exact prim_int h3 hv
    · obtain ⟨_, h2, h3⟩ := C09_div (E := E) h a1 a2; rw [ht] at h2; cases h2; exact prim_int h3 hv
    · obtain ⟨_, h2, h3⟩ := C09_mod (E := E) h a1 a2; rw [ht] at h2; cases h2; exact prim_int h3 hv
    · obtain ⟨_, h2, h3⟩ := C09_lsl (E := E) h a1 a2; rw [ht] at h2; cases h2; exact prim_int h3 hv
    · obtain ⟨_, h2, h3⟩ := C09_lsr (E := E) h a1 a2; rw [ht] at h2; cases h2; exact prim_int h3 hv
    · obtain ⟨_, h2, h3⟩ := C09_land (E := E) h a1 a2; rw [ht] at h2; cases h2; exact prim_int h3 hv
    · obtain ⟨_, h2, h3⟩ := C09_lor (E := E) h a1 a2; rw [ht] at h2; cases h2; exact prim_int h3 hv
    · obtain ⟨_, h2, h3⟩ := C09_lxor (E := E) h a1 a2; rw [ht] at h2; cases h2; exact prim_int h3 hv
    · obtain ⟨_, h2, h3⟩ := C09_eqb (E := E) h a1 a2; rw [ht] at h2; cases h2; exact prim_bool h3 hv
    · obtain ⟨_, h2, h3⟩ := C09_ltb (E := E) h a1 a2; rw [ht] at h2; cases h2; exact prim_bool h3 hv
    · obtain ⟨_, h2, h3⟩ := C09_leb (E := E) h a1 a2; rw [ht] at h2; cases h2; exact prim_bool h3 hv
    · obtain ⟨_, h2, h3⟩ := C09_compare (E := E) h a1 a2; rw [ht] at h2; cases h2; exact prim_cmp h3 hv
    · obtain ⟨_, h2, h3⟩ := C09_addc (E := E) h a1 a2; rw [ht] at h2; cases h2; exact prim_carry h3 hv
    · obtain ⟨_, h2, h3⟩ := C09_addcarryc (E := E) h a1 a2; rw [ht] at h2; cases h2; exact prim_carry h3 hv
    · obtain ⟨_, h2, h3⟩ := C09_subc (E := E) h a1 a2; rw [ht] at h2; cases h2; exact prim_carry h3 hv
    · obtain ⟨_, h2, h3⟩ := C09_subcarryc (E := E) h a1 a2; rw [ht] at h2; cases h2; exact prim_carry h3 hv
    · obtain ⟨_, h2, h3⟩ := C09_mulc (E := E) h a1 a2; rw [ht] at h2; cases h2; exact prim_pair h3 hv
    · obtain ⟨_, h2, h3⟩ := C09_diveucl (E := E) h a1 a2; rw [ht] at h2; cases h2; exact prim_pair h3 hv
  | cons a3 ha =>
  cases ha with
  | nil =>
    cases op <;> first | (cases hM; done) | skip
    all_goals (simp only [Means] at hM; subst hM)
    · obtain ⟨_, h2, h3⟩ := C09_diveucl21 (E := E) h a1 a2 a3; rw [ht] at h2; cases h2; exact prim_pair h3 hv
    · obtain ⟨_, h2, h3⟩ := C09_addmuldiv (E := E) h a1 a2 a3; rw [ht] at h2; cases h2; exact prim_int h3 hv
  | cons a4 ha => cases op <;> cases hM

end Wasm
