import Verif.CGen.Cps.Sim
import Verif.CGen.Cps.Calls
import Verif.CGen.Prog

/-! # Simulation for whole CPS programs -/

namespace CGen.Cps

open ANF

variable {B : Defs} {W : VWorld} {vcall : Var → List CVal → Th → VOut} {C : Cfg} {fenv : FEnv} {fns : List Var} {S : Sig}
  {ar : Tag → Nat}

theorem asgnAppVars'_out {W : World} {call me} : ∀ {vs : List Var} {s0 : Nat} {st}, asgnAppVars' fns vs (List.range' s0 vs.length) = some st →
    ∀ {l l' : Loc} {h h' : Th}, exec W call me st l h = .norm l' h' → ∀ j, s0 + vs.length ≤ j → h'.args j = h.args j := by
  intro vs
  induction vs with
  | nil =>
    intro s0 st h l l' hh hh' he j _
    simp only [List.length_nil, List.range'_zero, asgnAppVars', Option.some.injEq] at h
    subst h
    rw [exec_skip] at he
    cases he; rfl
  | cons v vs ih =>
    intro s0 st h l l' hh hh' he j hj
    simp only [List.length_cons, List.range'_succ, asgnAppVars', Option.map_eq_some_iff] at h hj
    obtain ⟨s', hs', rfl⟩ := h
    simp only [exec] at he
    split at he
    · rename_i l1 h1 e1
      split at he
      · split at he
        · cases he
          simp only [setArr]
          rw [if_neg (by omega)]
          exact ih hs' e1 j (by omega)
        · cases he
      · cases he
    · rename_i o ho
      exact absurd he (fun h => ho _ _ h)

theorem asgnFunVars'_set {W : World} {call me} : ∀ {vs : List Var} {ind : List Nat} {st}, asgnFunVars' vs ind = some st →
    ∀ {l l' : Loc} {h h' : Th}, exec W call me st l h = .norm l' h' → l'.argsSet = l.argsSet := by
  intro vs
  induction vs with
  | nil =>
    intro ind st h l l' hh hh' he
    cases ind with
    | nil =>
      simp only [asgnFunVars', Option.some.injEq] at h
      subst h
      rw [exec_skip] at he
      cases he; rfl
    | cons _ _ => simp [asgnFunVars'] at h
  | cons v vs ih =>
    intro ind st h l l' hh hh' he
    cases ind with
    | nil => simp [asgnFunVars'] at h
    | cons i ind =>
      simp only [asgnFunVars', Option.map_eq_some_iff] at h
      obtain ⟨s', hs', rfl⟩ := h
      simp only [exec] at he
      split at he
      · rename_i l1 h1 e1
        split at e1
        · cases e1; exact (ih hs' he).trans rfl
        · cases e1
      · rename_i o ho
        exact absurd he (fun h => ho _ _ h)

theorem take_range (np n : Nat) : (List.range n).take np = List.range' 0 (min np n) := by
  rw [List.range_eq_range']
  apply List.ext_getElem
  · simp
  · intro i h1 h2
    simp

/-- The heap check at function entry: afterwards the reserved words are free and the arguments are still there. -/
theorem exec_reserveV (hc : CtorsOk S.cenv) (hW : GcOkV S.cenv B W) (hk : LimitKept W) (har : ∀ t, ar t ≤ maxArgs) {ft : Tag}
    {xs : List Var} (hlen : xs.length = ar ft) (hxn : xs.Nodup) (hdis : ∀ y ∈ xs, y ∉ B.names) {np need : Nat} {res : VStmt}
    (hres : reserveV np B.names ⟨need, List.range (ar ft)⟩ xs (List.range (ar ft)) = some res)
    {vs : List Val} {full : List CVal} {l : Loc} {h : Th} (hvl : xs.length = vs.length) (hfl : full.length = vs.length)
    (hrep : ∀ (i : Nat) v c, vs[i]? = some v → full[i]? = some c → h.Rep .top S.cenv B v c)
    (hargs : ∀ (i : Nat) c, np ≤ i → full[i]? = some c → h.args i = some c)
    (htmp : ∀ (i : Nat) x, i < np → xs[i]? = some x → l.temps x = full[i]?)
    (hla : l.alloc = h.alloc) (hll : l.limit = h.limit) (hset : l.argsSet = true) (hle : h.alloc ≤ h.limit) :
    execV W vcall res l h = .abort ∨ ∃ (l' : Loc) (h' : Th) (full' : List CVal), execV W vcall res l h = .norm l' h' ∧ full'.length = vs.length ∧
      (∀ (i : Nat) v c, vs[i]? = some v → full'[i]? = some c → h'.Rep .top S.cenv B v c) ∧
      (∀ (i : Nat) c, np ≤ i → full'[i]? = some c → h'.args i = some c) ∧
      (∀ (i : Nat) x, i < np → xs[i]? = some x → l'.temps x = full'[i]?) ∧
      l'.alloc = h'.alloc ∧ l'.limit = h'.limit ∧ l'.argsSet = true ∧ h'.alloc + need ≤ h'.limit := by
  unfold reserveV at hres
  split at hres
  case h_2 => cases hres
  rename_i bef aft hbef haft
  simp only [Option.some.injEq] at hres
  subst hres
  simp only [execV]
  by_cases hlow : l.limit < l.alloc ∨ need ≤ l.limit - l.alloc
  · rw [if_pos hlow]
    exact .inr ⟨l, h, full, rfl, hfl, hrep, hargs, htmp, hla, hll, hset, by omega⟩
  · rw [if_neg hlow]
    have hind : (List.range (ar ft)).take np = List.range' 0 (xs.take np).length := by
      rw [take_range, List.length_take, hlen]
    rw [hind] at hbef haft
    have hmx : 0 + (xs.take np).length ≤ maxArgs ∨ xs.take np = [] := by
      left; rw [List.length_take]; have := har ft; omega
    have hxt : ∀ (i : Nat) x, (xs.take np)[i]? = some x → i < np ∧ xs[i]? = some x := by
      intro i x hx
      rw [List.getElem?_take] at hx
      split at hx
      · exact ⟨by assumption, hx⟩
      · cases hx
    have hfull : ∀ i, i < xs.length → ∃ c, full[i]? = some c := fun i hi =>
      ⟨full[i]'(by omega), List.getElem?_eq_getElem (by omega)⟩
    have hval : ∀ (i : Nat) x, (xs.take np)[i]? = some x → valOf B.names l x = full[i]? := by
      intro i x hx
      obtain ⟨h1, h2⟩ := hxt i x hx
      rw [valOf, if_neg (hdis x (List.mem_of_getElem? h2))]
      exact htmp i x h1 h2
    obtain ⟨args', ea, hin⟩ := exec_asgnAppVars' (W := W.base) (call := noCall) (me := 0) hbef hmx (l := l) (h := h) hset (by
      intro y hy
      obtain ⟨i, hi⟩ := List.mem_iff_getElem?.mp hy
      obtain ⟨h1, h2⟩ := hxt i y hi
      obtain ⟨c, hc'⟩ := hfull i (List.getElem?_eq_some_iff.mp h2).1
      exact ⟨c, by rw [hval i y hi]; exact hc'⟩)
    have hout := asgnAppVars'_out hbef ea
    rw [ea]
    simp only []
    have hall : ∀ (i : Nat) c, full[i]? = some c → args' i = some c := by
      intro i c hc'
      have hi := (List.getElem?_eq_some_iff.mp hc').1
      by_cases hnp : i < np
      · have hxi := List.getElem?_eq_getElem (l := xs) (i := i) (by omega)
        have hxi' : (xs.take np)[i]? = some xs[i] := by rw [List.getElem?_take, if_pos hnp]; exact hxi
        have := hin i _ hxi'
        rw [Nat.zero_add] at this
        rw [this, hval i _ hxi', hc']
      · have := hout i (by rw [List.length_take]; omega)
        rw [show args' i = h.args i from this]
        exact hargs i c (by omega) hc'
    cases hg : W.gc ⟨need, List.range (ar ft)⟩ { h with args := args' } with
    | none => exact .inl rfl
    | some h2 =>
      right
      simp only []
      obtain ⟨hroom, R, hF, hR⟩ := hW _ _ _ hg
      have hlim := hk _ _ _ hg
      obtain ⟨full', hl', hf'⟩ := exists_list (P := fun i c' => h2.args i = some c' ∧ ∀ c, full[i]? = some c → R c c') xs.length
        (by
          intro i hi
          obtain ⟨c, hc'⟩ := hfull i hi
          obtain ⟨c', h3, h4⟩ := hR i (by simp only [List.mem_range]; omega) c (hall i c hc')
            ⟨vs[i]'(by omega), hrep i _ c (List.getElem?_eq_getElem (by omega)) hc'⟩
          exact ⟨c', h3, fun d hd => by rw [hc'] at hd; cases hd; exact h4⟩)
      have h2args : ∀ (i : Nat), i < xs.length → h2.args i = full'[i]? := by
        intro i hi
        have hfi := List.getElem?_eq_getElem (l := full') (i := i) (by omega)
        rw [hfi]; exact (hf' i _ hfi).1
      simp only [exec]
      obtain ⟨l', q, ha1, ha2, hin', hout'⟩ := exec_asgnFunVars' (W := W.base) (call := noCall) (me := 0) haft
        (hxn.sublist (List.take_sublist _ _)) hmx (l := { l with alloc := h2.alloc }) (h := h2) hset (by
          intro i hi
          rw [List.length_take] at hi
          rw [Nat.zero_add, h2args i (by omega)]
          exact ⟨_, List.getElem?_eq_getElem (by omega)⟩)
      rw [q]
      refine ⟨l', h2, full', rfl, by omega, ?_, ?_, ?_, ha1, ?_, ?_, hroom⟩
      · intro i v c hv hc'
        have hi := (List.getElem?_eq_some_iff.mp hc').1
        obtain ⟨d, hd⟩ := hfull i (by omega)
        exact hF.rep hc (hrep i v d hv hd) ((hf' i c hc').2 d hd)
      · intro i c _ hc'
        rw [h2args i (by have := (List.getElem?_eq_some_iff.mp hc').1; omega)]; exact hc'
      · intro i x hi hx
        have hx' : (xs.take np)[i]? = some x := by rw [List.getElem?_take, if_pos hi]; exact hx
        rw [hin' i x hx', Nat.zero_add]
        exact h2args i (List.getElem?_eq_some_iff.mp hx).1
      · rw [ha2]
        show l.limit = h2.limit
        rw [hll, hlim]
      · rw [asgnFunVars'_set haft q]
        exact hset

theorem SimS.enter {cenv r} {o : Out} : SimS cenv B r o →
    SimV cenv B r (match o with
      | .norm _ h' => .done h'
      | .oot => .oot
      | .abort => .abort
      | _ => .ub) := by
  intro hs
  cases r with
  | val v =>
    rcases hs with rfl | ⟨c, l', h', rfl, h1⟩
    · exact .inl rfl
    · exact .inr ⟨c, h', rfl, h1⟩
  | oot =>
    rcases hs with rfl | rfl
    · exact .inl rfl
    · exact .inr rfl
  | stuck => trivial

/-- A function of the program. -/
theorem trVDef_sim (hS : C.cenv = S.cenv) (hc : CtorsOk S.cenv) (hW : GcOkV S.cenv B W) (hk : LimitKept W)
    (hP : PrimsOk .top S C.prims B W.base) (har : ∀ t, ar t ≤ maxArgs) (hfe : FenvOk ar fenv) {scall : Env → Exp → Res}
    (hcall : CallOkV S.cenv B ar C.nParam scall vcall) {f ft xs eb F} (hF : trVDef C fenv B.names f ft xs eb = some F)
    (hok : OkE S.cenv ar eb) (hpl : PlainE C.prims eb) (hlen : xs.length = ar ft) (hbv : (xs ++ eb.bv).Nodup)
    (hdis : ∀ y ∈ xs ++ eb.bv, y ∉ B.names) (hfv : ∀ y ∈ eb.fv, y ∈ xs ∨ y ∈ B.names)
    {vs : List Val} {full : List CVal} {h ρ'} (hset : setLists xs vs (defFuns B B emp emp) = some ρ')
    (hfl : full.length = vs.length)
    (hrep : ∀ (i : Nat) v c, vs[i]? = some v → full[i]? = some c → h.Rep .top S.cenv B v c)
    (hargs : ∀ (i : Nat) c, C.nParam ≤ i → full[i]? = some c → h.args i = some c) (hle : h.alloc ≤ h.limit) :
    SimV S.cenv B (evalE S scall eb ρ') (enterV W vcall F (full.take C.nParam) h) := by
  simp only [trVDef] at hF
  split at hF
  case h_1 => cases hF
  rename_i a ind hfen
  obtain ⟨rfl, rfl⟩ := hfe ft a ind hfen
  split at hF
  case h_2 => cases hF
  rename_i body asgn res htr hasgn hres
  simp only [Option.some.injEq] at hF
  subst hF
  have hxl := setLists_len hset
  unfold enterV
  simp only []
  rw [if_pos (by simp only [List.length_take]; omega)]
  apply SimS.enter
  rw [execV_seq execV_loadRegs]
  generalize hl1 : ({ temps := bindParams (xs.take C.nParam) (full.take C.nParam), alloc := h.alloc, limit := h.limit, argsSet := true } : Loc) = l1
  have hnd := hbv
  rw [List.nodup_append] at hnd
  obtain ⟨hxn, hebn, hxeb⟩ := hnd
  rcases exec_reserveV (vcall := vcall) (l := l1) hc hW hk har hlen hxn (fun y hy => hdis y (by simp [hy])) hres hxl hfl hrep hargs (by
      intro i x hi hx
      rw [← hl1]
      show bindParams _ _ x = _
      have := (List.getElem?_eq_some_iff.mp hx).1
      rw [bindParams_nth (i := i) (hxn.sublist (List.take_sublist _ _)) (by simp only [List.length_take]; omega)
        (by rw [List.getElem?_take, if_pos hi]; exact hx), List.getElem?_take, if_pos hi])
    (by rw [← hl1]) (by rw [← hl1]) (by rw [← hl1]) hle with q | ⟨l2, h2, full', q, hfl', hrep', hargs', htmp', ha2, hl2, hs2, hroom⟩
  · rw [execV_seq_stop q (by intro _ _ h; cases h)]
    exact .abort
  rw [execV_seq q]
  simp only [asgnFunVars, drop_range] at hasgn
  rw [← hlen, ← List.length_drop] at hasgn
  have hmx : C.nParam + (xs.drop C.nParam).length ≤ maxArgs ∨ xs.drop C.nParam = [] := by
    by_cases hnp : C.nParam < xs.length
    · left; rw [List.length_drop]; have := har ft; omega
    · right; exact List.drop_eq_nil_of_le (by omega)
  have hfull : ∀ i, i < xs.length → ∃ c, full'[i]? = some c := fun i hi =>
    ⟨full'[i]'(by omega), List.getElem?_eq_getElem (by omega)⟩
  obtain ⟨l3, q3, hal3, hli3, hin3, hout3⟩ := exec_asgnFunVars' (W := W.base) (call := noCall) (me := 0) hasgn
    (hxn.sublist (List.drop_sublist _ _)) hmx (l := l2) (h := h2) hs2 (by
      intro i hi
      rw [List.length_drop] at hi
      obtain ⟨c, hc'⟩ := hfull (C.nParam + i) (by omega)
      exact ⟨c, hargs' _ c (by omega) hc'⟩)
  rw [execV_seq (l' := l3) (h' := h2) (by rw [execV_base]; exact q3)]
  have htemps : ∀ (i : Nat) x, xs[i]? = some x → l3.temps x = full'[i]? := by
    intro i x hx
    have hilt := (List.getElem?_eq_some_iff.mp hx).1
    by_cases hi : i < C.nParam
    · have hnot : x ∉ xs.drop C.nParam := by
        intro hm
        obtain ⟨j, hj⟩ := List.mem_iff_getElem?.mp hm
        rw [List.getElem?_drop] at hj
        obtain ⟨p1, p2⟩ := List.getElem?_eq_some_iff.mp hx
        obtain ⟨p3, p4⟩ := List.getElem?_eq_some_iff.mp hj
        have := (List.Nodup.getElem_inj_iff hxn).mp (p2.trans p4.symm)
        omega
      rw [hout3 x hnot]
      exact htmp' i x hi hx
    · have := hin3 (i - C.nParam) x (by rw [List.getElem?_drop, show C.nParam + (i - C.nParam) = i by omega]; exact hx)
      rw [show C.nParam + (i - C.nParam) = i by omega] at this
      obtain ⟨c, hc'⟩ := hfull i hilt
      rw [this, hargs' i c (by omega) hc', hc']
  refine trV_sim hS hc hP har hfe hcall eb body htr hok hpl (hebn.sublist (localsE_bv eb)) (fun x hx => by
    have hx' := (localsE_bv eb).subset hx
    refine ⟨fun hf => ?_, hdis x (by simp [hx'])⟩
    rcases hfv x hf with h1 | h1
    · exact hxeb x h1 x hx' rfl
    · exact hdis x (by simp [hx']) h1) ρ' l3 h2 ⟨?_, by rw [hli3, hl2], by rw [hal3, ha2], by rw [hal3, hli3, ha2, hl2]; exact hroom,
      by rw [asgnFunVars'_set hasgn q3]; exact hs2⟩
  intro y hy
  rcases hfv y hy with hyx | hyf
  · have hyn : y ∉ B.names := hdis y (by simp [hyx])
    obtain ⟨i, hi⟩ := List.mem_iff_getElem?.mp hyx
    have hilt := (List.getElem?_eq_some_iff.mp hi).1
    obtain ⟨c, hc'⟩ := hfull i hilt
    have hv : vs[i]? = some (vs[i]'(by omega)) := List.getElem?_eq_getElem (by omega)
    refine ⟨_, c, by rw [setLists_nth hset hxn hi]; exact hv, by rw [valOf, if_neg hyn, htemps i y hi]; exact hc', ?_⟩
    rw [hal3, hli3, ha2, hl2]
    exact hrep' i _ c hv hc'
  · have hyx : y ∉ xs := fun hx => hdis y (by simp [hx]) hyf
    exact ⟨_, _, by rw [setLists_not_mem hset y hyx, defFuns_mem hyf], by rw [valOf, if_pos hyf], .fn hyf⟩

theorem findV_trVDefs : ∀ {B' : Defs} {P}, trVDefs C fenv fns B' = some P → ∀ {f ft xs eb},
    findDef f B' = some (ft, xs, eb) → ∃ F, findV f P = some F ∧ trVDef C fenv fns f ft xs eb = some F := by
  intro B'
  induction B' using Defs.ind with
  | nil => intro P _ f ft xs eb h; simp [findDef] at h
  | cons g gt ys e B' ih =>
    intro P hP f ft xs eb h
    simp only [trVDefs] at hP
    split at hP
    case h_2 => cases hP
    rename_i P' F' h1 h2
    simp only [Option.some.injEq] at hP
    subst hP
    have hn : F'.name = g := by
      simp only [trVDef] at h2
      split at h2
      · cases h2
      split at h2
      · simp only [Option.some.injEq] at h2; subst h2; rfl
      · cases h2
    simp only [findDef] at h
    split at h
    · rename_i he
      subst he
      cases h
      exact ⟨F', by simp only [findV, if_pos hn], h2⟩
    · rename_i he
      obtain ⟨F, h3, h4⟩ := ih h1 h
      exact ⟨F, by simp only [findV]; rw [if_neg (by rw [hn]; exact fun h => he h.symm)]; exact h3, h4⟩

theorem findDef_plain {prims} : ∀ {B' : Defs}, PlainB prims B' → ∀ {f ft xs eb}, findDef f B' = some (ft, xs, eb) →
    PlainE prims eb := by
  intro B'
  induction B' using Defs.ind with
  | nil => intro _ f ft xs eb h; simp [findDef] at h
  | cons g gt ys e B' ih =>
    intro hok f ft xs eb h
    simp only [PlainB] at hok
    simp only [findDef] at h
    split at h
    · cases h; exact hok.1
    · exact ih hok.2 h

/-- All functions of the program, at every number of nested calls. -/
theorem callV_ok (hS : C.cenv = S.cenv) (hc : CtorsOk S.cenv) (hW : GcOkV S.cenv B W) (hk : LimitKept W)
    (hP : PrimsOk .top S C.prims B W.base) (har : ∀ t, arOf fenv t ≤ maxArgs) (hfe : FenvOk (arOf fenv) fenv) {P : List VFun}
    (htr : trVDefs C fenv B.names B = some P) (hok : SeenB S.cenv B) (hpl : PlainB C.prims B) (hbv : B.bv.Nodup)
    (hfv : B.fv = ∅) : ∀ n, CallOkV S.cenv B (arOf fenv) C.nParam (callAt S n) (callV W P n) := by
  intro n
  induction n with
  | zero =>
    intro f ft xs eb vs full h ρ' _ _ _ _ _ _ _
    exact .inr rfl
  | succ n ih =>
    intro f ft xs eb vs full h ρ' hfd har' hset hfl hrep hargs hle
    obtain ⟨F, h1, h2⟩ := findV_trVDefs htr hfd
    have hlen : xs.length = arOf fenv ft := (setLists_len hset).trans har'
    have hoke := calls_trVDef hfe h2 (findDef_ok hok hfd)
    show SimV S.cenv B (run S n ρ' eb) (callV W P (n + 1) f (full.take C.nParam) h)
    rw [run_callAt, callV, h1]
    obtain ⟨p1, p2, p3⟩ := params_of_nodup hbv f ft xs eb (mem_of_findDef hfd)
    refine trVDef_sim hS hc hW hk hP har hfe ih h2 hoke (findDef_plain hpl hfd) hlen (hbv.sublist (findDef_bv hfd)) ?_ ?_ hset hfl hrep hargs hle
    · intro y hy
      simp only [List.mem_append] at hy
      exact hy.elim (p2 y) (p3 y)
    · intro y hy
      rcases fv_body hfd y hy with h | h | h
      · exact .inl h
      · exact .inr h
      · rw [hfv] at h; simp at h

/-- What the C function `body` has to do. -/
def SimM (cenv : Ctor.PMap Ctor.Info) (B : Defs) : Res → Out → Prop
  | .val v, o => o = .abort ∨ ∃ c h', o = .ret c h' ∧ h'.Rep .top cenv B v c ∧ h'.alloc ≤ h'.limit
  | .oot, o => o = .abort ∨ o = .oot
  | .stuck, _ => True

/-- Whole programs. -/
theorem compileV_sim {e : Exp} {body : Var} {M} (hS : C.cenv = S.cenv) (hc : CtorsOk S.cenv) (hW : GcOkV S.cenv B W)
    (hk : LimitKept W) (hP : PrimsOk .top S C.prims B W.base)
    (hM : compileV C body (.fn B e) = some M) (hok : SeenE S.cenv (.fn B e)) (hpl : PlainE C.prims (.fn B e))
    (hbv : (Exp.fn B e).bv.Nodup) (hfv : (Exp.fn B e).fv = ∅) (n : Nat) (h : Th) (hle : h.alloc ≤ h.limit) :
    SimM S.cenv B (run S n emp (.fn B e)) (runV W M n h) := by
  have hfe : FenvOk (arOf (funEnv (.fn B e))) (funEnv (.fn B e)) := (funEnv_wf hok).ok
  have har : ∀ t, arOf (funEnv (.fn B e)) t ≤ maxArgs := (funEnv_wf hok).le
  simp only [compileV] at hM
  split at hM
  case isFalse => cases hM
  split at hM
  case h_2 => cases hM
  rename_i P s hPs htr
  simp only [Option.some.injEq] at hM
  subst hM
  simp only [SeenE] at hok
  have hoke := calls_trV hfe e _ htr hok.2
  simp only [PlainE] at hpl
  simp only [Exp.bv] at hbv
  simp only [Exp.fv] at hfv
  have hBfv : B.fv = ∅ := by
    rw [Finset.eq_empty_iff_forall_notMem] at hfv ⊢
    intro y hy
    refine hfv y ?_
    simp only [Defs.fv, Finset.mem_sdiff] at hy
    simp only [Finset.mem_sdiff, Finset.mem_union]
    exact ⟨.inl hy.1, hy.2⟩
  rw [List.nodup_append] at hbv
  obtain ⟨hBn, hen, hBe⟩ := hbv
  have hcall := callV_ok hS hc hW hk hP har hfe hPs hok.1 hpl.1 hBn hBfv n
  rw [run_callAt]
  simp only [evalE, runV]
  rw [execV_seq execV_loadRegs]
  generalize hl1 : ({ temps := bindParams [] [], alloc := h.alloc, limit := h.limit, argsSet := true } : Loc) = l1
  have hloc : ∀ y ∈ localsE e, y ∉ B.names := by
    intro y hy hn
    exact hBe y ((names_bv B).subset hn) y ((localsE_bv e).subset hy) rfl
  have hfe' : ∀ y ∈ e.fv, y ∈ B.names := by
    intro y hy
    by_contra hn
    rw [Finset.eq_empty_iff_forall_notMem] at hfv
    exact hfv y (by simp [hy, hn])
  have key : ∀ l2 h2, l2.alloc = h2.alloc → l2.limit = h2.limit → l2.argsSet = true → h2.alloc + maxAllocsV e ≤ h2.limit →
      SimM S.cenv B (evalE S (callAt S n) e (defFuns B B emp emp))
        (match execV W (callV W P n) (.seq s (.retArg 1)) l2 h2 with
          | .ret c h' => .ret c h'
          | .oot => .oot
          | .abort => .abort
          | _ => .ub) := by
    intro l2 h2 ha hl hs hroom
    have := trV_sim (W := W) hS hc hP har hfe hcall e s htr hoke hpl.2 (hen.sublist (localsE_bv e))
      (fun x hx => ⟨fun hf => hloc x hx (hfe' x hf), hloc x hx⟩) (defFuns B B emp emp) l2 h2
      ⟨fun y hy => ⟨_, _, defFuns_mem (hfe' y hy), by rw [valOf, if_pos (hfe' y hy)], .fn (hfe' y hy)⟩, hl, by rw [ha],
        by rw [ha, hl]; exact hroom, hs⟩
    generalize evalE S (callAt S n) e (defFuns B B emp emp) = r at this
    cases r with
    | val v =>
      rcases this with q | ⟨c, l', h', q, h1, h2, h3⟩
      · left; rw [execV_seq_stop q (by intro _ _ h; cases h)]
      · right
        refine ⟨c, h', ?_, h2, h3⟩
        rw [execV_seq q]
        simp only [execV, h1]
        rw [if_pos (by decide)]
    | oot =>
      rcases this with q | q
      · left; rw [execV_seq_stop q (by intro _ _ h; cases h)]
      · right; rw [execV_seq_stop q (by intro _ _ h; cases h)]
    | stuck => trivial
  by_cases hlow : l1.limit < l1.alloc ∨ maxAllocsV e ≤ l1.limit - l1.alloc
  · rw [execV_seq (l' := l1) (h' := h) (by simp only [reserveBody, execV]; rw [if_pos hlow])]
    refine key l1 h (by rw [← hl1]) (by rw [← hl1]) (by rw [← hl1]) ?_
    rw [← hl1] at hlow
    simp only at hlow
    omega
  · cases hg : W.gc ⟨maxAllocsV e, []⟩ h with
    | none =>
      rw [execV_seq_stop (o := .abort) (by simp only [reserveBody, execV]; rw [if_neg hlow, hg]) (by intro _ _ h; cases h)]
      cases evalE S (callAt S n) e (defFuns B B emp emp) with
      | val v => exact .inl rfl
      | oot => exact .inl rfl
      | stuck => trivial
    | some h2 =>
      obtain ⟨hroom, _⟩ := hW _ _ _ hg
      rw [execV_seq (l' := { l1 with alloc := h2.alloc }) (h' := h2) (by
        simp only [reserveBody, execV]; rw [if_neg hlow, hg]; simp only [exec])]
      refine key _ h2 rfl ?_ (by rw [← hl1]) hroom
      rw [← hl1]
      show h.limit = h2.limit
      exact (hk _ _ _ hg).symm

end CGen.Cps
