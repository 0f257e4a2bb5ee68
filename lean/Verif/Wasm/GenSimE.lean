import Verif.Wasm.GenSim

/-! # Simulation of expressions -/

namespace Wasm
open Instr

section
variable {C : Ctx} {lenv : VMap} {call : ANF.Env → ANF.Exp → ANF.Res} {n : Nat}

theorem Rep.word {cenv : CEnv} {B : ANF.Defs} {m : Mem} {top : Nat} {t : ANF.Tag} {vs : List ANF.Val} {w : Nat} {info : Ctor.Info}
    (h : Rep cenv B m top (.constr t vs) w) (hi : cenv t = some info) : info.ordinal < 2 ^ 31 ∧ info.arity = vs.length ∧
    (vs = [] → w = 2 * info.ordinal + 1) ∧ (vs ≠ [] → w % 4 = 0 ∧ w + 4 * (vs.length + 1) ≤ top ∧ loadN m w 4 = info.ordinal) := by
  cases h with
  | unboxed h1 h2 h3 =>
    rw [hi] at h1; cases h1
    exact ⟨h3, by simpa using h2, fun _ => rfl, fun h => absurd rfl h⟩
  | boxed h1 h2 h3 h4 h5 h6 h7 =>
    rw [hi] at h1; cases h1
    exact ⟨h4, h2, fun h => absurd h h3, fun _ => ⟨h5, h6, h7⟩⟩

theorem CalleeEnds.elim {fn : Func} {args : List Val} {s : St} {p : Nat} {r : ANF.Res} (h : CalleeEnds C fn args s p r n) :
    (r = .oot ∧ n = 0) ∨ ∃ k, n = k + 1 ∧ Ends C.E k fn.body { s with locals := args ++ List.replicate fn.locals (.i32 0), stack := [] }
      (C.Done s p r) (r = .oot) := by
  cases n with
  | zero => exact .inl ⟨h, rfl⟩
  | succ k => exact .inr ⟨k, rfl, h⟩

set_option linter.unusedVariables false in
mutual
/-- The code of an expression does what the expression does. -/
theorem simE (hC : C.Ok) (hc : CallOk C call n) : ∀ (e : ANF.Exp) {mem : Nat} {is : List Instr} {ρ : ANF.Env} {s : St} {p : Nat},
    transE C.S.cenv lenv C.fenv C.penv e mem = some is → checkE C.S.cenv e = true → FitsE C.S.cenv e → C.EnvOk lenv ρ s p →
    LenvOk C.fenv lenv s.locals.length → Inv s p mem → ANF.evalE C.S call e ρ ≠ .stuck →
    Ends C.E n is s (C.Done s p (ANF.evalE C.S call e ρ)) (ANF.evalE C.S call e ρ = .oot)
  | .fn B e, mem, is, ρ, s, p, ht, hk, hf, hE, hl, hI, hs => by rw [transE] at ht; cases ht
  | .constr x t ys e, mem, is, ρ, s, p, ht, hk, hf, hE, hl, hI, hs => by
    rw [transE] at ht
    obtain ⟨i, hx, ht⟩ := Option.bind_eq_some_iff.mp ht
    rw [checkE, Bool.and_eq_true, Bool.and_eq_true] at hk
    obtain ⟨⟨hk1, hk2⟩, hk3⟩ := hk
    replace hk2 : ys.length ≤ 1024 := of_decide_eq_true hk2
    rw [FitsE] at hf
    obtain ⟨hf1, hf2⟩ := hf
    obtain ⟨info, hi, ho⟩ : ∃ info, C.S.cenv t = some info ∧ info.ordinal < 2 ^ 31 := by
      rw [ordOk] at hk1
      rcases h : C.S.cenv t with _ | info
      · rw [h] at hk1; cases hk1
      · rw [h] at hk1; exact ⟨info, rfl, by simpa using hk1⟩
    have hai := hf1 info hi
    rw [ANF.evalE] at hs ⊢
    rcases hg : ANF.getList ρ ys with _ | vs
    · rw [hg] at hs; exact absurd rfl hs
    rw [hg] at hs
    simp only at hs ⊢
    cases ys with
    | nil =>
      simp only at ht
      obtain ⟨info', hi', ht⟩ := Option.bind_eq_some_iff.mp ht
      rw [hi] at hi'; cases hi'
      obtain ⟨is', ht', ht⟩ := Option.bind_eq_some_iff.mp ht
      cases ht
      cases hg
      obtain ⟨m, pg, g, l, st⟩ := s
      have hst := hI.stack
      simp only at hst
      subst hst
      refine Ends.steps (is := [w32 (2 * info.ordinal + 1)]) (s1 := ⟨m, pg, g, l, [.i32 (2 * info.ordinal + 1)]⟩) rfl
        (by rw [st_w32 (by omega), st_nil]) ?_
      exact setLocal_ends (s1 := ⟨m, pg, g, l, [.i32 (2 * info.ordinal + 1)]⟩) ⟨hE.funs, hE.vars⟩ hl ⟨hI.1, hI.2, hI.3, hI.4, hI.5, rfl⟩
        ⟨fun _ _ => rfl, Nat.le_refl _⟩ rfl hx (.unboxed hi hai ho)
        fun s2 e1 e2 e3 => simE hC hc e ht' hk3 hf2 e1 e2 e3 hs
    | cons y ys =>
      simp only at ht
      obtain ⟨st, hst, ht⟩ := Option.bind_eq_some_iff.mp ht
      obtain ⟨info', hi', ht⟩ := Option.bind_eq_some_iff.mp ht
      rw [hi] at hi'; cases hi'
      obtain ⟨is', ht', ht⟩ := Option.bind_eq_some_iff.mp ht
      cases ht
      have hsz : ctorSize info = 4 * ((y :: ys).length + 1) + 24 := by
        rw [ctorSize, if_neg (by rw [hai]; simp), hai]
      rw [List.append_assoc, List.append_assoc]
      refine Ends.growIf hC.pages hI (by rw [hsz]; omega) (fun s' h => .inl h) fun s1 i1 k1 l1 => ?_
      have hE1 := hE.keeps k1 l1
      rw [← l1] at hl
      have hreads : ∀ z ∈ y :: ys, ∃ i, readVar lenv C.fenv z = some i := by
        have hst' := hst
        unfold storeConstr at hst'
        obtain ⟨_, _, hst'⟩ := Option.bind_eq_some_iff.mp hst'
        obtain ⟨js, hj, _⟩ := Option.bind_eq_some_iff.mp hst'
        exact storeArgs_reads hj
      obtain ⟨ws, hw1, hw2⟩ := hE1.readsAll hC hl hg hreads
      have hlen : vs.length = (y :: ys).length := ANF.getList_length hg
      have hsm := i1.small
      have hrm := i1.room
      have hfew := hC.few
      simp only [maxNumFunctions] at hfew
      obtain ⟨s2, q1, q2, q3, q4, q5, q6, q7⟩ := storeConstr_ok (E := C.E) (mem := (growIf mem (ctorSize info)).2) hi ho hw1
        (fun w hw => by
          obtain ⟨v, hv⟩ := Forall₂.mem_right hw2 hw
          exact hv.lt (by omega) (by omega)) hst (i1.weaken (by omega))
      refine Ends.append q1 ?_
      obtain ⟨m2, pg2, g2, l2, st2⟩ := s2
      have hst2 := q2.stack
      simp only at hst2 q4 q5
      subst hst2
      refine Ends.steps (is := [globalGet globCap]) (s1 := ⟨m2, pg2, g2, l2, [.i32 p]⟩) rfl
        (by rw [st_gget, q5, st_nil]) ?_
      have hE2 := hE1.keeps q3 q4
      have hr : C.Rep m2 (p + 4 * ((y :: ys).length + 1)) (.constr t vs) p := by
        refine .boxed hi (by rw [hai, hlen]) ?_ ho i1.aligned (by omega) q6 ?_
        · intro h0; rw [h0] at hlen; cases hlen
        · intro j v hv
          obtain ⟨w, hw, hr⟩ := Forall₂.nth hw2 hv
          have := q7 j w hw
          simp only at this
          rw [this]
          exact hr.mono q3.mem q3.ptr
      have hl2 : LenvOk C.fenv lenv l2.length := by rw [q4]; exact hl
      exact setLocal_ends (s1 := ⟨m2, pg2, g2, l2, [.i32 p]⟩) ⟨hE2.funs, hE2.vars⟩ hl2 ⟨q2.1, q2.2, q2.3, q2.4, q2.5, rfl⟩
        ((k1.trans q3).trans ⟨fun _ _ => rfl, Nat.le_refl _⟩) rfl hx hr fun s3 e1 e2 e3 => simE hC hc e ht' hk3 hf2 e1 e2 e3 hs
  | .case x bs, mem, is, ρ, s, p, ht, hk, hf, hE, hl, hI, hs => by
    rw [transE] at ht
    obtain ⟨i, hx, ht⟩ := Option.bind_eq_some_iff.mp ht
    obtain ⟨⟨bx, ub⟩, hb, ht⟩ := Option.bind_eq_some_iff.mp ht
    cases ht
    rw [checkE] at hk
    rw [FitsE] at hf
    rw [ANF.evalE] at hs ⊢
    rcases hv : ρ x with _ | v
    · rw [hv] at hs; exact absurd rfl hs
    rcases v with ⟨t, vs⟩ | ⟨ρ0, B, f'⟩ | q
    rotate_left
    · rw [hv] at hs; exact absurd rfl hs
    · rw [hv] at hs; exact absurd rfl hs
    rw [hv] at hs
    simp only at hs ⊢
    by_cases hcon : ANF.consistent C.S.cenv t bs.tags = true
    swap
    · rw [if_neg hcon] at hs; exact absurd rfl hs
    rw [if_pos hcon] at hs ⊢
    obtain ⟨w, hw1, hw2⟩ := hE.vars x _ i hv hx
    obtain ⟨info, hi⟩ : ∃ info, C.S.cenv t = some info := by
      cases hw2 with
      | unboxed h1 => exact ⟨_, h1⟩
      | boxed h1 => exact ⟨_, h1⟩
    obtain ⟨g1, g2, g3, g4⟩ := hw2.word hi
    have hB := simB hC hc bs hb hk hf hE hl hI hi (fun t' ht' => by
      obtain ⟨i1, i2, j1, j2, j3⟩ := consistent_mem hcon t' ht'
      rw [hi] at j1; cases j1
      exact ⟨i2, j2, j3⟩) hw1 hw2 hs
    obtain ⟨m, pg, g, l, st⟩ := s
    have hst := hI.stack
    simp only at hst hw1 hB
    subst hst
    have hsm := hI.small
    have hrm := hI.room
    simp only at hsm hrm
    have hlt : w < 2 ^ 32 := hw2.lt (by omega) (by have := hC.few; simp only [maxNumFunctions] at this; omega)
    refine Ends.steps (is := [localGet i, w32 1, binop .t32 .and, eqz .t32])
      (js := [ifte [] (ifChain true i bx) (ifChain false i ub)]) (s1 := ⟨m, pg, g, l, [boolVal (decide (w % 2 = 0))]⟩) rfl ?_ ?_
    · rw [st_lget hw1, st_w32 (by omega), st_bin32 (r := w % 2) ?_, st_eqz32, st_nil]
      unfold evalBin
      simp only [Nat.and_one_is_mod]
    · by_cases h0 : vs = []
      · have := g3 h0
        rw [if_pos h0] at hB
        rw [decide_eq_false (by omega)]
        exact Ends.ite (c := 0) (st := []) rfl (by rw [if_pos rfl]; exact hB)
      · have := (g4 h0).1
        rw [if_neg h0] at hB
        rw [decide_eq_true (by omega)]
        exact Ends.ite (c := 1) (st := []) rfl (by rw [if_neg (by decide)]; exact hB)
  | .proj x t k y e, mem, is, ρ, s, p, ht, hk, hf, hE, hl, hI, hs => by
    rw [transE] at ht
    obtain ⟨is', ht', ht⟩ := Option.bind_eq_some_iff.mp ht
    obtain ⟨j, hy, ht⟩ := Option.bind_eq_some_iff.mp ht
    obtain ⟨i, hx, ht⟩ := Option.bind_eq_some_iff.mp ht
    cases ht
    rw [checkE] at hk
    rw [FitsE] at hf
    rw [ANF.evalE] at hs ⊢
    rcases hv : ρ y with _ | v
    · rw [hv] at hs; exact absurd rfl hs
    rcases v with ⟨t', vs⟩ | ⟨ρ0, B, f'⟩ | q
    rotate_left
    · rw [hv] at hs; exact absurd rfl hs
    · rw [hv] at hs; exact absurd rfl hs
    rw [hv] at hs
    simp only at hs ⊢
    by_cases htt : t' = t
    swap
    · rw [if_neg htt] at hs; exact absurd rfl hs
    rw [if_pos htt] at hs ⊢
    rcases hvk : vs[k]? with _ | u
    · rw [hvk] at hs; exact absurd rfl hs
    rw [hvk] at hs
    simp only at hs ⊢
    obtain ⟨w, hw1, hw2⟩ := hE.vars y _ j hv hy
    have hkl := (List.getElem?_eq_some_iff.mp hvk).1
    obtain ⟨hb1, hb2⟩ : w + 4 * (vs.length + 1) ≤ p ∧ C.Rep s.mem p u (loadN s.mem (w + 4 * (k + 1)) 4) := by
      cases hw2 with
      | unboxed => simp at hvk
      | boxed _ _ _ _ _ h6 _ h8 => exact ⟨h6, h8 k u hvk⟩
    obtain ⟨m, pg, g, l, st⟩ := s
    have hst := hI.stack
    simp only at hst hw1
    subst hst
    have hsm := hI.small
    have hrm := hI.room
    simp only at hsm hrm hb2
    refine Ends.steps (is := [localGet j, w32 ((k + 1) * 4), binop .t32 .add, load .t32 0]) (js := localSet i :: is')
      (s1 := ⟨m, pg, g, l, [.i32 (loadN m (w + 4 * (k + 1)) 4)]⟩) rfl ?_ ?_
    · rw [st_lget hw1, st_w32 (by omega), st_add32 (by omega), st_load32 (by omega), st_nil, Nat.add_zero, Nat.mul_comm (k + 1) 4]
    · exact setLocal_ends (s1 := ⟨m, pg, g, l, [.i32 (loadN m (w + 4 * (k + 1)) 4)]⟩) ⟨hE.funs, hE.vars⟩ hl
        ⟨hI.1, hI.2, hI.3, hI.4, hI.5, rfl⟩ ⟨fun _ _ => rfl, Nat.le_refl _⟩ rfl hx hb2
        fun s2 e1 e2 e3 => simE hC hc e ht' hk hf e1 e2 e3 hs
  | .letapp x f ft ys e, mem, is, ρ, s, p, ht, hk, hf, hE, hl, hI, hs => by
    rw [transE] at ht
    obtain ⟨i, hx, ht⟩ := Option.bind_eq_some_iff.mp ht
    obtain ⟨is', ht', ht⟩ := Option.bind_eq_some_iff.mp ht
    obtain ⟨cl, hcl, ht⟩ := Option.bind_eq_some_iff.mp ht
    cases ht
    rw [checkE, Bool.and_eq_true] at hk
    rw [FitsE] at hf
    rw [ANF.evalE] at hs ⊢
    rcases hcal : ANF.callee ρ f ft ys with _ | ⟨ρ', eb⟩
    · rw [hcal] at hs; exact absurd rfl hs
    rw [hcal] at hs
    simp only at hs ⊢
    obtain ⟨pre, args, st, fn, j, rfl, c2, c3, c4, c5, c6⟩ := hE.callee hC hl hc hcal (hI.weaken (Nat.zero_le _)) hcl
    have c7 := c6 (by intro h; rw [h] at hs; exact hs rfl)
    simp only [Bool.false_eq_true, if_false]
    rw [List.append_assoc, List.append_assoc]
    refine Ends.append c2 ?_
    rcases c7.elim with ⟨c8, c9⟩ | ⟨k, c9, c8⟩
    · rw [c8]
      exact .inr ⟨rfl, by rw [c9]; rfl⟩
    · rw [c9]
      refine Ends.call (st := st) rfl c4 c3 c5 c8 (fun h => by rw [h]) ?_
      rw [← c9]
      intro s' hd
      show Ends C.E n _ ⟨s'.mem, s'.pages, s'.globals, s.locals, []⟩ _ _
      obtain ⟨m', pg', g', l', st'⟩ := s'
      rcases hd with hoom | ⟨v, p', w, d1, d2, d3, d4, d5⟩
      · have ho := hoom.1
        simp only at ho
        refine Ends.steps (is := [globalGet globOutOfMem]) (s1 := ⟨m', pg', g', s.locals, [.i32 1]⟩) rfl
          (by rw [st_gget]; simp only [ho]; rw [st_nil]) ?_
        refine .inl ⟨⟨m', pg', g', s.locals, []⟩, ?_, .inl ⟨ho, hoom.2⟩⟩
        exact Runs.ite_ret (c := 1) (st := []) rfl (by rw [if_neg (by decide)]; exact Runs.ret _ _ _)
      · rw [d1] at hs ⊢
        simp only at hs ⊢
        have ho := d3.oom
        simp only at ho d4 d5
        refine Ends.steps (is := [globalGet globOutOfMem]) (s1 := ⟨m', pg', g', s.locals, [.i32 0]⟩) rfl
          (by rw [st_gget]; simp only [ho]; rw [st_nil]) ?_
        refine Ends.append (as := [ifte [] [ret] []]) (s1 := ⟨m', pg', g', s.locals, []⟩)
          (Runs.ite (c := 0) (st := []) (s' := ⟨m', pg', g', s.locals, []⟩) rfl (by rw [if_pos rfl]; exact Runs.nil _ _)
            (Runs.nil _ _)) ?_
        refine Ends.steps (is := [globalGet globResult]) (s1 := ⟨m', pg', g', s.locals, [.i32 w]⟩) rfl
          (by rw [st_gget]; simp only [d4]; rw [st_nil]) ?_
        have hk' : Keeps s p ⟨m', pg', g', s.locals, [.i32 w]⟩ p' := ⟨d2.mem, d2.ptr⟩
        exact setLocal_ends (hE.keeps hk' rfl) hl ⟨d3.1, d3.2, d3.3, d3.4, d3.5, rfl⟩ hk' rfl hx d5
          fun s2 e1 e2 e3 => simE hC hc e ht' hk.2 hf e1 e2 e3 hs
  | .app f ft ys, mem, is, ρ, s, p, ht, hk, hf, hE, hl, hI, hs => by
    rw [transE] at ht
    rw [ANF.evalE] at hs ⊢
    rcases hcal : ANF.callee ρ f ft ys with _ | ⟨ρ', eb⟩
    · rw [hcal] at hs; exact absurd rfl hs
    rw [hcal] at hs
    simp only at hs ⊢
    obtain ⟨pre, args, st, fn, j, rfl, c2, c3, c4, c5, c6⟩ := hE.callee hC hl hc hcal (hI.weaken (Nat.zero_le _)) ht
    have c7 := c6 hs
    simp only [if_true]
    refine Ends.append c2 ?_
    rcases c7.elim with ⟨c8, c9⟩ | ⟨k, c9, c8⟩
    · exact .inr ⟨c8, by rw [c9]; rfl⟩
    · rw [c9]
      exact Ends.tailcall (st := st) rfl c4 c3 c5 c8
  | .primVal x q e, mem, is, ρ, s, p, ht, hk, hf, hE, hl, hI, hs => by
    rw [transE] at ht
    obtain ⟨i, hx, ht⟩ := Option.bind_eq_some_iff.mp ht
    obtain ⟨v, hv, ht⟩ := Option.bind_eq_some_iff.mp ht
    obtain ⟨is', ht', ht⟩ := Option.bind_eq_some_iff.mp ht
    cases ht
    rw [checkE] at hk
    rw [FitsE] at hf
    rw [ANF.evalE] at hs ⊢
    cases q with
    | float => cases hv
    | str => cases hv
    | int k =>
    have hk63 := hf.1 k rfl
    cases hv
    rw [Nat.mod_eq_of_lt (by omega), List.append_assoc]
    refine Ends.growIf hC.pages hI (by omega) (fun s' h => .inl h) fun s1 i1 k1 l1 => ?_
    have hE1 := hE.keeps k1 l1
    rw [← l1] at hl
    have hsm := i1.small
    have hrm := i1.room
    have hal := i1.aligned
    have hgm := i1.gmp
    obtain ⟨m, pg, g, l, st⟩ := s1
    have hst := i1.stack
    simp only at hst hsm hrm hgm hl
    subst hst
    have hl1 : l.length = (l.set i (.i32 p)).length := by simp
    refine Ends.steps (s1 := ⟨storeN m p 8 k, pg, setGlobal g globMemPtr (.i32 (p + 8)), l.set i (.i32 p), []⟩) rfl ?_ ?_
    · rw [st_gget, hgm, st_const, st_store64 (by omega), st_gget, hgm, st_lset (hl.bound x i hx), st_gget, hgm, st_w32 (by omega),
        st_add32 (by omega), st_gset, st_nil, Nat.add_zero]
    · have hk2 : Keeps ⟨m, pg, g, l, []⟩ p ⟨storeN m p 8 k, pg, setGlobal g globMemPtr (.i32 (p + 8)), l, []⟩ (p + 8) :=
        ⟨fun b hb => by show storeN m p 8 k b = m b; rw [storeN, if_neg (by omega)], by omega⟩
      have hE2 := hE1.keeps hk2 rfl
      have hr : C.Rep (storeN m p 8 k) (p + 8) (.prim (.int k)) p := .int hk63 hal (by omega) (loadN8_store _ _ _ (by omega))
      have hE3 : C.EnvOk lenv (ρ.set x (.prim (.int k)))
          ⟨storeN m p 8 k, pg, setGlobal g globMemPtr (.i32 (p + 8)), l.set i (.i32 p), []⟩ (p + 8) := hE2.set hl hx hr
      refine (simE hC hc e ht' hk hf.2 hE3 (by rw [hl1] at hl; exact hl) ⟨setGlobal_same g globMemPtr (.i32 (p + 8)), ?_, by omega, ?_, i1.pages, rfl⟩ hs).mono
        (fun s' h => Ctx.Done.of (p1 := p + 8) (s1 := ⟨storeN m p 8 k, pg, setGlobal g globMemPtr (.i32 (p + 8)), l.set i (.i32 p), []⟩)
          ⟨fun b hb => (hk2.mem b hb).trans (k1.mem b hb), by omega⟩ h) id
      · show setGlobal g globMemPtr (.i32 (p + 8)) globOutOfMem = _
        rw [setGlobal_other _ _ (by decide)]
        exact i1.oom
      · show _ ≤ pg * pageSize
        omega
  | .prim x q ys e, mem, is, ρ, s, p, ht, hk, hf, hE, hl, hI, hs => by
    rw [transE] at ht
    obtain ⟨op, hop, ht⟩ := Option.bind_eq_some_iff.mp ht
    obtain ⟨i, hx, ht⟩ := Option.bind_eq_some_iff.mp ht
    obtain ⟨js, hjs, ht⟩ := Option.bind_eq_some_iff.mp ht
    obtain ⟨code, hcode, ht⟩ := Option.bind_eq_some_iff.mp ht
    obtain ⟨is', ht', ht⟩ := Option.bind_eq_some_iff.mp ht
    cases ht
    rw [checkE] at hk
    rw [FitsE] at hf
    rw [ANF.evalE] at hs ⊢
    rcases hg : ANF.getList ρ ys with _ | vs
    · rw [hg] at hs; exact absurd rfl hs
    rw [hg] at hs
    simp only at hs ⊢
    rcases hop' : C.S.op q vs with _ | v
    · rw [hop'] at hs; exact absurd rfl hs
    rw [hop'] at hs
    simp only at hs ⊢
    unfold ANF.Sig.op at hop'
    rcases hps : ANF.asPrims vs with _ | ps
    · rw [hps] at hop'; cases hop'
    rw [hps] at hop'
    simp only at hop'
    obtain ⟨fo, hfo, rfl⟩ := Option.map_eq_some_iff.mp hop'
    obtain ⟨ns, r, hns, hM, hEn⟩ := hC.prims q op ps fo hop hfo
    rw [List.append_assoc, List.append_assoc]
    refine Ends.growIf hC.pages hI (by omega) (fun s' h => .inl h) fun s1 i1 k1 l1 => ?_
    have hE1 := hE.keeps k1 l1
    rw [← l1] at hl
    have hsm := i1.small
    have hrm := i1.room
    obtain ⟨s2, w, p2, r1, r2, r3, r4⟩ := prim_ok (E := C.E) (B := C.B) ⟨i1.gmp, i1.aligned, by omega, by omega⟩
      (mapM_args hE1 hjs hg hps hns) hM hEn hcode
    refine Ends.append r1 ?_
    rw [i1.stack] at r2
    have hk2 : Keeps s1 p s2 p2 := ⟨r3.mem, r3.grows⟩
    have hb := r3.bound
    refine setLocal_ends (hE1.keeps hk2 r3.locals) (by rw [r3.locals]; exact hl)
      ⟨r3.gmp, r3.oom.trans i1.oom, r3.aligned, ?_, by rw [r3.pages]; exact i1.pages, rfl⟩ (k1.trans hk2) r2 hx r4
      fun s3 e1 e2 e3 => simE hC hc e ht' hk hf e1 e2 e3 hs
    show _ ≤ s2.pages * pageSize
    rw [r3.pages]
    omega
  | .halt x, mem, is, ρ, s, p, ht, hk, hf, hE, hl, hI, hs => by
    rw [transE] at ht
    obtain ⟨i, hx, ht⟩ := Option.bind_eq_some_iff.mp ht
    cases ht
    rw [ANF.evalE] at hs ⊢
    rcases hv : ρ x with _ | v
    · rw [hv] at hs; exact absurd rfl hs
    simp only
    obtain ⟨w, hw1, hw2⟩ := hE.vars x v i hv hx
    obtain ⟨m, pg, g, l, st⟩ := s
    have hst := hI.stack
    simp only at hst hw1
    subst hst
    refine .inl ⟨⟨m, pg, setGlobal g globResult (.i32 w), l, []⟩, ?_, .inr ⟨v, p, w, rfl, ⟨fun _ _ => rfl, Nat.le_refl _⟩, ?_,
      setGlobal_same g globResult (.i32 w), hw2⟩⟩
    · exact Runs.steps (is := [localGet i, globalSet globResult]) (bs := [ret]) rfl
        (by rw [st_lget hw1, st_gset, st_nil]) (Runs.ret _ _ _)
    · have hrm := hI.room
      refine ⟨?_, ?_, hI.aligned, ?_, hI.pages, rfl⟩
      · show setGlobal g globResult (.i32 w) globMemPtr = _
        rw [setGlobal_other _ _ (by decide)]; exact hI.gmp
      · show setGlobal g globResult (.i32 w) globOutOfMem = _
        rw [setGlobal_other _ _ (by decide)]; exact hI.oom
      · show _ ≤ pg * pageSize
        simp only at hrm
        omega
/-- The chain of tests finds the branch of the constructor. -/
theorem simB (hC : C.Ok) (hc : CallOk C call n) : ∀ (bs : ANF.Brs) {mem : Nat} {bx ub : List (Nat × List Instr)} {ρ : ANF.Env} {s : St}
    {p : Nat} {t : ANF.Tag} {vs : List ANF.Val} {i w : Nat} {info : Ctor.Info},
    transB C.S.cenv lenv C.fenv C.penv bs mem = some (bx, ub) → checkB C.S.cenv bs = true → FitsB C.S.cenv bs → C.EnvOk lenv ρ s p →
    LenvOk C.fenv lenv s.locals.length → Inv s p mem → C.S.cenv t = some info →
    (∀ t' ∈ bs.tags, ∃ i', C.S.cenv t' = some i' ∧ info.indTag = i'.indTag) → s.locals[i]? = some (.i32 w) →
    C.Rep s.mem p (.constr t vs) w → ANF.evalB C.S call t bs ρ ≠ .stuck →
    Ends C.E n (if vs = [] then ifChain false i ub else ifChain true i bx) s (C.Done s p (ANF.evalB C.S call t bs ρ))
      (ANF.evalB C.S call t bs ρ = .oot)
  | .nil, mem, bx, ub, ρ, s, p, t, vs, i, w, info, ht, hk, hf, hE, hl, hI, hi, hcon, hw, hr, hs => by
    rw [ANF.evalB] at hs
    exact absurd rfl hs
  | .cons t' e bs, mem, bx, ub, ρ, s, p, t, vs, i, w, info, ht, hk, hf, hE, hl, hI, hi, hcon, hw, hr, hs => by
    rw [transB] at ht
    obtain ⟨is, ht1, ht⟩ := Option.bind_eq_some_iff.mp ht
    obtain ⟨⟨bx', ub'⟩, ht2, ht⟩ := Option.bind_eq_some_iff.mp ht
    obtain ⟨info', hi', ht⟩ := Option.bind_eq_some_iff.mp ht
    rw [checkB, Bool.and_eq_true, Bool.and_eq_true] at hk
    obtain ⟨⟨hk1, hk2⟩, hk3⟩ := hk
    have ho' : info'.ordinal < 2 ^ 31 := by
      rw [ordOk, hi'] at hk1
      simpa using hk1
    rw [FitsB] at hf
    obtain ⟨i2, hi2, hind⟩ := hcon t' (by rw [ANF.Brs.tags]; exact List.mem_cons_self ..)
    rw [hi'] at hi2; cases hi2
    obtain ⟨g1, g2, g3, g4⟩ := hr.word hi
    have hsm := hI.small
    have hrm := hI.room
    have harity : info.arity = 0 ↔ vs = [] := by rw [g2, List.length_eq_zero_iff]
    have hrest : t' ≠ t → Ends C.E n (if vs = [] then ifChain false i ub' else ifChain true i bx') s
        (C.Done s p (ANF.evalB C.S call t (.cons t' e bs) ρ)) (ANF.evalB C.S call t (.cons t' e bs) ρ = .oot) := by
      intro hne
      rw [ANF.evalB, if_neg hne] at hs ⊢
      exact simB hC hc bs ht2 hk3 hf.2 hE hl hI hi (fun t'' h => hcon t'' (by rw [ANF.Brs.tags]; exact List.mem_cons_of_mem _ h)) hw hr hs
    have hhit : t' = t → Ends C.E n is s (C.Done s p (ANF.evalB C.S call t (.cons t' e bs) ρ))
        (ANF.evalB C.S call t (.cons t' e bs) ρ = .oot) := by
      intro he
      rw [ANF.evalB, if_pos he] at hs ⊢
      exact simE hC hc e ht1 hk2 hf.1 hE hl hI hs
    have hsame : info.ordinal = info'.ordinal → (info.arity = 0 ↔ info'.arity = 0) → t' = t := fun h1 h2 =>
      (hC.ords t t' info info' hi hi' hind h2 h1).symm
    by_cases ha : info'.arity = 0
    · rw [if_pos ha] at ht
      cases ht
      by_cases h0 : vs = []
      · rw [if_pos h0] at hrest ⊢
        refine chain_step hI.stack hw ho' g1 (by simpa using g3 h0) ?_
        split
        · rename_i he
          exact hhit (hsame he (by rw [harity]; exact ⟨fun _ => ha, fun _ => h0⟩))
        · rename_i he
          refine hrest ?_
          rintro rfl
          rw [hi] at hi'; cases hi'
          exact he rfl
      · rw [if_neg h0] at hrest ⊢
        refine hrest ?_
        rintro rfl
        rw [hi] at hi'; cases hi'
        exact h0 (harity.mp ha)
    · rw [if_neg ha] at ht
      cases ht
      by_cases h0 : vs = []
      · rw [if_pos h0] at hrest ⊢
        refine hrest ?_
        rintro rfl
        rw [hi] at hi'; cases hi'
        exact ha (harity.mpr h0)
      · rw [if_neg h0] at hrest ⊢
        obtain ⟨_, g5, g6⟩ := g4 h0
        refine chain_step hI.stack hw ho' g1 (by simp only [if_true]; exact ⟨by omega, g6⟩) ?_
        split
        · rename_i he
          exact hhit (hsame he (by rw [harity]; exact ⟨fun h => absurd h h0, fun h => absurd h ha⟩))
        · rename_i he
          refine hrest ?_
          rintro rfl
          rw [hi] at hi'; cases hi'
          exact he rfl
end

end

end Wasm
