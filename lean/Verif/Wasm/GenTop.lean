import Verif.Wasm.GenSimE

/-! # From expressions to modules -/

namespace Wasm
open Instr

mutual
theorem localVars_bv {cenv : CEnv} {lenv fenv : VMap} {penv : ANF.Tag → Option Primop} : ∀ (e : ANF.Exp) {mem : Nat} {is : List Instr},
    transE cenv lenv fenv penv e mem = some is → localVars e = e.bv
  | .fn B e, mem, is, ht => by rw [transE] at ht; cases ht
  | .constr x t ys e, mem, is, ht => by
    rw [transE] at ht
    obtain ⟨i, hx, ht⟩ := Option.bind_eq_some_iff.mp ht
    rw [localVars, ANF.Exp.bv]
    congr 1
    cases ys with
    | nil =>
      obtain ⟨_, _, ht⟩ := Option.bind_eq_some_iff.mp ht
      obtain ⟨is', ht', ht⟩ := Option.bind_eq_some_iff.mp ht
      exact localVars_bv e ht'
    | cons y ys =>
      obtain ⟨_, _, ht⟩ := Option.bind_eq_some_iff.mp ht
      obtain ⟨_, _, ht⟩ := Option.bind_eq_some_iff.mp ht
      obtain ⟨is', ht', ht⟩ := Option.bind_eq_some_iff.mp ht
      exact localVars_bv e ht'
  | .case x bs, mem, is, ht => by
    rw [transE] at ht
    obtain ⟨i, hx, ht⟩ := Option.bind_eq_some_iff.mp ht
    obtain ⟨⟨bx, ub⟩, hb, ht⟩ := Option.bind_eq_some_iff.mp ht
    rw [localVars, ANF.Exp.bv]
    exact localVarsB_bv bs hb
  | .proj x t k y e, mem, is, ht => by
    rw [transE] at ht
    obtain ⟨is', ht', ht⟩ := Option.bind_eq_some_iff.mp ht
    rw [localVars, ANF.Exp.bv, localVars_bv e ht']
  | .letapp x f ft ys e, mem, is, ht => by
    rw [transE] at ht
    obtain ⟨i, hx, ht⟩ := Option.bind_eq_some_iff.mp ht
    obtain ⟨is', ht', ht⟩ := Option.bind_eq_some_iff.mp ht
    rw [localVars, ANF.Exp.bv, localVars_bv e ht']
  | .app f ft ys, mem, is, ht => by rw [localVars, ANF.Exp.bv]
  | .primVal x q e, mem, is, ht => by
    rw [transE] at ht
    obtain ⟨i, hx, ht⟩ := Option.bind_eq_some_iff.mp ht
    obtain ⟨v, hv, ht⟩ := Option.bind_eq_some_iff.mp ht
    obtain ⟨is', ht', ht⟩ := Option.bind_eq_some_iff.mp ht
    rw [localVars, ANF.Exp.bv, localVars_bv e ht']
  | .prim x q ys e, mem, is, ht => by
    rw [transE] at ht
    obtain ⟨op, hop, ht⟩ := Option.bind_eq_some_iff.mp ht
    obtain ⟨i, hx, ht⟩ := Option.bind_eq_some_iff.mp ht
    obtain ⟨js, hjs, ht⟩ := Option.bind_eq_some_iff.mp ht
    obtain ⟨code, hcode, ht⟩ := Option.bind_eq_some_iff.mp ht
    obtain ⟨is', ht', ht⟩ := Option.bind_eq_some_iff.mp ht
    rw [localVars, ANF.Exp.bv, localVars_bv e ht']
  | .halt x, mem, is, ht => by rw [localVars, ANF.Exp.bv]
theorem localVarsB_bv {cenv : CEnv} {lenv fenv : VMap} {penv : ANF.Tag → Option Primop} : ∀ (bs : ANF.Brs) {mem : Nat}
    {r : List (Nat × List Instr) × List (Nat × List Instr)},
    transB cenv lenv fenv penv bs mem = some r → localVarsB bs = bs.bv
  | .nil, mem, r, ht => by rw [localVarsB, ANF.Brs.bv]
  | .cons t e bs, mem, r, ht => by
    rw [transB] at ht
    obtain ⟨is, ht1, ht⟩ := Option.bind_eq_some_iff.mp ht
    obtain ⟨r', ht2, ht⟩ := Option.bind_eq_some_iff.mp ht
    rw [localVarsB, ANF.Brs.bv, localVars_bv e ht1, localVarsB_bv bs ht2]
end

theorem numDefs_names : ∀ (B : ANF.Defs), numDefs B = B.names.length := by
  intro B
  induction B using ANF.Defs.ind with
  | nil => rfl
  | cons f ft xs e B ih => simp [numDefs, ANF.Defs.names, ih]

theorem names_sub_bv : ∀ (B : ANF.Defs), B.names.Sublist B.bv := by
  intro B
  induction B using ANF.Defs.ind with
  | nil => simp [ANF.Defs.names]
  | cons f ft xs e B ih =>
    rw [ANF.Defs.names, ANF.Defs.bv]
    exact (ih.trans ((List.sublist_append_right _ _).trans (List.sublist_append_right _ _))).cons₂ f

/-- The definition at a position. -/
theorem find_at {cenv : CEnv} {fenv : VMap} {penv : ANF.Tag → Option Primop} : ∀ {B : ANF.Defs} {fns : List Func},
    transFuns cenv fenv penv B = some fns → B.names.Nodup → checkD cenv B = true → FitsD cenv B → ∀ {j : Nat} {f : ANF.Var} {ft : ANF.Tag}
    {xs : List ANF.Var} {eb : ANF.Exp}, B.names[j]? = some f → ANF.findDef f B = some (ft, xs, eb) →
    ∃ fn, fns[j]? = some fn ∧ transFun cenv fenv penv f xs eb = some fn ∧ checkE cenv eb = true ∧ FitsE cenv eb := by
  intro B
  induction B using ANF.Defs.ind with
  | nil => intro fns _ _ _ _ j f ft xs eb h; simp [ANF.Defs.names] at h
  | cons g gt ys e B ih =>
    intro fns ht hn hk hf j f ft xs eb hj hd
    rw [transFuns] at ht
    obtain ⟨fn, ht1, ht⟩ := Option.bind_eq_some_iff.mp ht
    obtain ⟨fs, ht2, ht⟩ := Option.bind_eq_some_iff.mp ht
    cases ht
    rw [checkD, Bool.and_eq_true, Bool.and_eq_true] at hk
    rw [FitsD] at hf
    rw [ANF.Defs.names] at hn hj
    rw [List.nodup_cons] at hn
    rw [ANF.findDef] at hd
    cases j with
    | zero =>
      simp only [List.getElem?_cons_zero, Option.some.injEq] at hj
      subst hj
      rw [if_pos rfl] at hd
      cases hd
      exact ⟨fn, rfl, ht1, hk.2, hf.1⟩
    | succ j =>
      rw [List.getElem?_cons_succ] at hj
      rw [if_neg (by rintro rfl; exact hn.1 (List.mem_of_getElem? hj))] at hd
      obtain ⟨fn', h1, h2⟩ := ih ht2 hn.2 hk.1.2 hf.2 hj hd
      exact ⟨fn', by simpa using h1, h2⟩

/-- Binders of a definition are distinct and are not names of functions. -/
theorem def_bv : ∀ {B : ANF.Defs} {f : ANF.Var} {ft : ANF.Tag} {xs : List ANF.Var} {eb : ANF.Exp}, B.bv.Nodup →
    ANF.findDef f B = some (ft, xs, eb) → (xs ++ eb.bv).Nodup ∧ ∀ x ∈ xs ++ eb.bv, x ∈ B.bv ∧ x ∉ B.names := by
  intro B
  induction B using ANF.Defs.ind with
  | nil => intro f ft xs eb _ h; cases h
  | cons g gt ys e B ih =>
    intro f ft xs eb hn hd
    rw [ANF.Defs.bv, List.nodup_cons, ← List.append_assoc, List.nodup_append] at hn
    obtain ⟨hn1, hn2, hn3, hn4⟩ := hn
    rw [ANF.findDef] at hd
    rw [ANF.Defs.bv, ANF.Defs.names]
    split at hd
    · cases hd
      refine ⟨hn2, fun x hx => ⟨?_, ?_⟩⟩
      · simp only [List.mem_cons, List.mem_append] at hx ⊢
        tauto
      · rw [List.mem_cons, not_or]
        refine ⟨?_, fun h => hn4 x hx x ((names_sub_bv B).mem h) rfl⟩
        rintro rfl
        exact hn1 (List.mem_append_left _ hx)
    · obtain ⟨h1, h2⟩ := ih hn3 hd
      refine ⟨h1, fun x hx => ⟨?_, ?_⟩⟩
      · have := (h2 x hx).1
        simp only [List.mem_cons, List.mem_append]
        tauto
      · rw [List.mem_cons, not_or]
        refine ⟨?_, (h2 x hx).2⟩
        rintro rfl
        exact hn1 (List.mem_append_right _ (h2 x hx).1)

theorem fenv_none {C : Ctx} {x : ANF.Var} (h : x ∉ C.B.names) : C.fenv x = none := by
  rcases hf : C.fenv x with _ | i
  · rfl
  · obtain ⟨j, _, hj⟩ := varMap_some hf
    exact absurd (List.mem_of_getElem? hj) h

theorem lenv_ok {C : Ctx} {l : List ANF.Var} (h : ∀ x ∈ l, x ∉ C.B.names) : LenvOk C.fenv (varMap 0 l) l.length := by
  constructor
  · intro x i hx
    obtain ⟨j, _, hj⟩ := varMap_some hx
    exact fenv_none (h x (List.mem_of_getElem? hj))
  · intro x y i hx hy
    obtain ⟨j, h1, hj⟩ := varMap_some hx
    obtain ⟨k, h2, hk⟩ := varMap_some hy
    have : j = k := by omega
    subst this
    rw [hj] at hk
    exact Option.some.inj hk
  · intro x i hx
    obtain ⟨j, h1, hj⟩ := varMap_some hx
    have := (List.getElem?_eq_some_iff.mp hj).1
    omega

/-- The names of the functions in the environment of the bundle. -/
theorem bundle_rep {C : Ctx} {x : ANF.Var} {v : ANF.Val} {i : Nat} {m : Mem} {p : Nat}
    (h : ANF.defFuns C.B C.B ANF.emp ANF.emp x = some v) (hi : C.fenv x = some i) : C.Rep m p v i := by
  obtain ⟨j, h1, hj⟩ := varMap_some hi
  rw [ANF.defFuns_mem (List.mem_of_getElem? hj)] at h
  cases h
  rw [h1, Nat.add_comm]
  exact .fn hj

/-- The module is the translation of the program. -/
structure Ctx.Module (C : Ctx) (e : ANF.Exp) (main : Func) : Prop where
  ok : C.Ok
  nodup : (ANF.Exp.fn C.B e).bv.Nodup
  fits : FitsE C.S.cenv (.fn C.B e)
  check : checkE C.S.cenv (.fn C.B e) = true
  code : ∃ fns, C.E.funcs = main :: fns ∧ transFuns C.S.cenv C.fenv C.penv C.B = some fns
  body : transE C.S.cenv (varMap 0 (localVars e)) C.fenv C.penv e 0 = some main.body
  locals : main.locals = (localVars e).length

/-- The call handler of the interpreter at a level. -/
def callAt (S : ANF.Sig) : Nat → ANF.Env → ANF.Exp → ANF.Res
  | 0 => fun _ _ => .oot
  | n + 1 => ANF.run S n

theorem run_at (S : ANF.Sig) (n : Nat) (ρ : ANF.Env) (e : ANF.Exp) : ANF.run S n ρ e = ANF.evalE S (callAt S n) e ρ := by
  cases n <;> rfl

theorem Ctx.Module.calls {C : Ctx} {e : ANF.Exp} {main : Func} (h : C.Module e main) : ∀ n, CallOk C (callAt C.S n) n := by
  intro n
  induction n with
  | zero =>
    intro j f ft xs eb vs ws ρ' s p hj hd hs hw hI
    obtain ⟨fns, hE, ht⟩ := h.code
    have hk := h.check
    rw [checkE, Bool.and_eq_true, Bool.and_eq_true] at hk
    have hf := h.fits
    rw [FitsE] at hf
    obtain ⟨fn, h1, h2, _⟩ := find_at ht h.ok.names hk.1.2 hf.1 hj hd
    refine ⟨fn, by rw [hE]; exact h1, ?_, fun _ => rfl⟩
    rw [transFun] at h2
    obtain ⟨_, _, h2⟩ := Option.bind_eq_some_iff.mp h2
    obtain ⟨body, h3, h2⟩ := Option.bind_eq_some_iff.mp h2
    cases h2
    rfl
  | succ n ih =>
    intro j f ft xs eb vs ws ρ' s p hj hd hs hw hI
    obtain ⟨fns, hE, ht⟩ := h.code
    have hk := h.check
    rw [checkE, Bool.and_eq_true, Bool.and_eq_true] at hk
    have hf := h.fits
    rw [FitsE] at hf
    obtain ⟨fn, h1, h2, h5, h6⟩ := find_at ht h.ok.names hk.1.2 hf.1 hj hd
    rw [transFun] at h2
    obtain ⟨_, _, h2⟩ := Option.bind_eq_some_iff.mp h2
    obtain ⟨body, h3, h2⟩ := Option.bind_eq_some_iff.mp h2
    cases h2
    refine ⟨_, by rw [hE]; exact h1, rfl, ?_⟩
    intro hst
    rw [callAt, run_at] at hst ⊢
    have hn := h.nodup
    rw [ANF.Exp.bv, List.nodup_append] at hn
    obtain ⟨d1, d2⟩ := def_bv hn.1 hd
    have hlv := localVars_bv eb h3
    rw [← hlv] at d1 d2
    have hxw : xs.length = ws.length := (ANF.setLists_len hs).trans hw.length_eq
    have hlen : (xs ++ localVars eb).length = (ws.map Val.i32 ++ List.replicate (localVars eb).length (Val.i32 0)).length := by
      simp [hxw]
    have hl := lenv_ok (C := C) fun x hx => (d2 x hx).2
    rw [hlen] at hl
    have hE' : C.EnvOk (varMap 0 (xs ++ localVars eb)) ρ'
        { s with locals := ws.map Val.i32 ++ List.replicate (localVars eb).length (.i32 0), stack := [] } p := by
      constructor
      · intro x v i hv hi
        have hx : x ∉ xs := by
          intro hx
          rw [fenv_none (d2 x (List.mem_append_left _ hx)).2] at hi
          cases hi
        rw [ANF.setLists_not_mem hs x hx] at hv
        exact bundle_rep hv hi
      · intro x v i hv hi
        have hxn := hl.apart x i hi
        have hx : x ∈ xs := by
          by_contra hx
          rw [ANF.setLists_not_mem hs x hx] at hv
          by_cases hxB : x ∈ C.B.names
          · obtain ⟨i', hi'⟩ := varMap_mem (k := 1) hxB
            rw [Ctx.fenv, hi'] at hxn; cases hxn
          · rw [ANF.defFuns_not_mem hxB] at hv; cases hv
        obtain ⟨k, hk1, hk2⟩ := ANF.setLists_mem hs x hx
        rw [hv] at hk2
        have hki : varMap 0 (xs ++ localVars eb) x = some (0 + k) := varMap_nth d1 (by
          rw [List.getElem?_append_left (List.getElem?_eq_some_iff.mp hk1).1]; exact hk1)
        rw [hi] at hki
        cases hki
        obtain ⟨w, hw1, hw2⟩ := Forall₂.nth hw hk2.symm
        refine ⟨w, ?_, hw2⟩
        show (ws.map Val.i32 ++ _)[0 + k]? = _
        rw [Nat.zero_add, List.getElem?_append_left (by
          have := (List.getElem?_eq_some_iff.mp hw1).1
          simpa using this), List.getElem?_map, hw1]
        rfl
    have := simE h.ok ih eb h3 h5 h6 hE' hl ⟨hI.1, hI.2, hI.3, hI.4, hI.5, rfl⟩ hst
    exact this.mono (fun s' hd => Ctx.Done.of (s := s) (p1 := p) (s1 := { s with locals := ws.map Val.i32 ++ List.replicate (localVars eb).length (.i32 0), stack := [] })
      ⟨fun _ _ => rfl, Nat.le_refl _⟩ hd) id

/-- The main function does what the program does. -/
theorem Ctx.Module.main {C : Ctx} {e : ANF.Exp} {main : Func} (h : C.Module e main) (m0 : Mem) (n : Nat)
    (hs : ANF.run C.S n ANF.emp (.fn C.B e) ≠ .stuck) :
    Ends C.E n main.body (initSt m0 main) (C.Done (initSt m0 main) 0 (ANF.run C.S n ANF.emp (.fn C.B e)))
      (ANF.run C.S n ANF.emp (.fn C.B e) = .oot) := by
  have hr : ANF.run C.S n ANF.emp (.fn C.B e) = ANF.evalE C.S (callAt C.S n) e (ANF.defFuns C.B C.B ANF.emp ANF.emp) := by
    rw [run_at, ANF.evalE]
  rw [hr] at hs ⊢
  have hk := h.check
  rw [checkE, Bool.and_eq_true, Bool.and_eq_true] at hk
  have hf := h.fits
  rw [FitsE] at hf
  have hn := h.nodup
  rw [ANF.Exp.bv, List.nodup_append] at hn
  have hlv := localVars_bv e h.body
  have hap : ∀ x ∈ localVars e, x ∉ C.B.names := fun x hx hB =>
    hn.2.2 x ((names_sub_bv C.B).mem hB) x (by rw [← hlv]; exact hx) rfl
  have hl := lenv_ok (C := C) hap
  refine simE h.ok (h.calls n) e h.body hk.2 hf.2 ?_ ?_ ?_ hs
  · constructor
    · intro x v i hv hi
      exact bundle_rep hv hi
    · intro x v i hv hi
      have hxn := hl.apart x i hi
      by_cases hxB : x ∈ C.B.names
      · obtain ⟨i', hi'⟩ := varMap_mem (k := 1) hxB
        rw [Ctx.fenv, hi'] at hxn; cases hxn
      · rw [ANF.defFuns_not_mem hxB] at hv; cases hv
  · rw [initSt, List.length_replicate, h.locals]; exact hl
  · exact ⟨rfl, rfl, rfl, by simp [initSt], by simp [initSt, maxMemPages], rfl⟩

theorem module_of {S : ANF.Sig} {penv : ANF.Tag → Option Primop} {B : ANF.Defs} {e : ANF.Exp} {funcs : List Func} {E : Env}
    (h : WasmInput S penv B e) (ht : transProg S.cenv penv (.fn B e) = some funcs) (hE : Instance E funcs) :
    ∃ main fns, funcs = main :: fns ∧ (Ctx.mk S penv B E).Module e main := by
  rw [transProg] at ht
  split at ht
  swap
  · cases ht
  rename_i hc
  obtain ⟨fns, h1, ht⟩ := Option.bind_eq_some_iff.mp ht
  obtain ⟨main, h2, ht⟩ := Option.bind_eq_some_iff.mp ht
  cases ht
  have hn := h.nodup
  rw [ANF.Exp.bv, List.nodup_append] at hn
  refine ⟨_, fns, rfl, ⟨hE.pages, ?_, (names_sub_bv B).nodup hn.1, h.ords, h.prims⟩, h.nodup, h.fits, hc, ⟨fns, hE.funcs, h1⟩, h2, rfl⟩
  rw [checkE, Bool.and_eq_true, Bool.and_eq_true, numDefs_names] at hc
  exact of_decide_eq_true hc.1.1

end Wasm
