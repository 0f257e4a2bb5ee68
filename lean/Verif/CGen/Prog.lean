import Verif.CGen.Sim
import Verif.CGen.Calls

/-! # Simulation for whole programs -/

namespace CGen

open ANF

variable {G : HeapI} {B : Defs} {W : World} {ccall : Nat → Var → List CVal → Th → Out} {me : Nat}
  {C : Cfg} {fenv : FEnv} {S : Sig} {ar : Tag → Nat}

theorem bindParams_nth : ∀ {xs : List Var} {cs : List CVal}, xs.Nodup → cs.length = xs.length → ∀ {i : Nat} {x},
    xs[i]? = some x → bindParams xs cs x = cs[i]? := by
  intro xs
  induction xs with
  | nil => intro cs _ _ i x h; simp at h
  | cons y xs ih =>
    intro cs hn hl i x h
    cases cs with
    | nil => simp at hl
    | cons c cs =>
      simp only [List.nodup_cons] at hn
      cases i with
      | zero => simp only [List.getElem?_cons_zero, Option.some.injEq] at h; subst h; simp [bindParams]
      | succ i =>
        simp only [List.getElem?_cons_succ] at h ⊢
        have : x ≠ y := fun he => hn.1 (he ▸ List.mem_of_getElem? h)
        simp only [bindParams, if_neg this]
        exact ih hn.2 (by simpa using hl) h

theorem Keeps.setFrame {cenv d h F} : Keeps G cenv B d h (h.setFrame d F) := by
  have hf : ∀ k, k < d → (h.setFrame d F).frames k = h.frames k := by
    intro k hk; simp only [Th.setFrame]; rw [if_neg (by omega)]
  refine ⟨rfl, fun k hk => by rw [hf k hk], fun k hk => by rw [hf k hk], fun k hk => by rw [hf k hk], ?_⟩
  intro k hk _ i _ c v hc hr
  exact ⟨c, by rw [hf k hk]; exact hc, hr⟩

theorem Below.setFrame {d h F} (hb : Below d h) : Below d (h.setFrame d F) :=
  (Keeps.setFrame (G := .top) (B := .nil) (cenv := fun _ => none)).below hb

theorem Th.Ok.setFrame {cenv d F} {h : Th} (ok : h.Ok G cenv B) (hb : Below d h) : (h.setFrame d F).Ok G cenv B :=
  ok.same (me := d) hb rfl rfl rfl rfl (fun k hk => by simp only [Th.setFrame]; rw [if_neg (by omega)])

theorem unbreak_enter {o : Out} {d h r cenv} : Sim G cenv B d h r o →
    Sim G cenv B d h r (match o with
      | .ret c h' => .ret c h'
      | .oot => .oot
      | .abort => .abort
      | _ => .ub) := by
  intro hs
  cases r with
  | val v =>
    rcases hs with rfl | ⟨c, h', rfl, h1⟩
    · exact .inl rfl
    · exact .inr ⟨c, h', rfl, h1⟩
  | oot =>
    rcases hs with rfl | rfl
    · exact .inl rfl
    · exact .inr rfl
  | stuck => trivial

theorem Sim.abort {d h r cenv} : Sim G cenv B d h r .abort := by
  cases r with
  | val v => exact .inl rfl
  | oot => exact .inl rfl
  | stuck => trivial

theorem asgnFunVars'_len : ∀ {vs : List Var} {ind : List Nat} {st}, asgnFunVars' vs ind = some st → vs.length = ind.length
  | [], [], _, _ => rfl
  | [], _ :: _, _, h => by simp [asgnFunVars'] at h
  | _ :: _, [], _, h => by simp [asgnFunVars'] at h
  | _ :: vs, _ :: ind, _, h => by
    simp only [asgnFunVars', Option.map_eq_some_iff] at h
    obtain ⟨st, h, _⟩ := h
    simp only [List.length_cons, asgnFunVars'_len h]

/-- A function of the program. -/
theorem trDef_sim (hS : C.cenv = S.cenv) (hc : CtorsOk S.cenv) (hW : GcOk G S.cenv B W) (hP : PrimsOk G S C.prims B W)
    (hG : G.Laws S.cenv B) (har : ∀ t, ar t ≤ maxArgs) (hfe : FenvOk ar fenv) (hres : C.result ∉ B.names) {scall : Env → Exp → Res}
    (hcall : CallOk G S.cenv B ar C.nParam scall ccall) {f ft xs eb F} (hF : trDef C fenv B.names f ft xs eb = some F)
    (hok : OkE S.cenv ar eb) (hbv : (xs ++ eb.bv).Nodup)
    (hdis : ∀ y ∈ xs ++ eb.bv, y ∉ B.names) (hfv : ∀ y ∈ eb.fv, y ∈ xs ∨ y ∈ B.names)
    {vs : List Val} {full : List CVal} {h d ρ'} (hset : setLists xs vs (defFuns B B emp emp) = some ρ')
    (hfl : full.length = vs.length)
    (hrep : ∀ (i : Nat) v c, vs[i]? = some v → full[i]? = some c → h.Rep G S.cenv B v c)
    (hargs : ∀ (i : Nat) c, C.nParam ≤ i → full[i]? = some c → h.args i = some c) (hb : Below d h) (hle : h.alloc ≤ h.limit)
    (hOk : h.Ok G S.cenv B) :
    Sim G S.cenv B d h (evalE S scall eb ρ') (enter W ccall F d (full.take C.nParam) h) := by
  simp only [trDef] at hF
  split at hF
  case h_1 => cases hF
  rename_i a ind hfen
  obtain ⟨rfl, rfl⟩ := hfe ft a ind hfen
  split at hF
  case h_2 => cases hF
  rename_i asgn body n hasgn htr
  simp only [Option.some.injEq] at hF
  subst hF
  have hxl := setLists_len hset
  unfold enter
  simp only []
  rw [if_pos (by simp only [List.length_take]; omega)]
  apply unbreak_enter
  generalize hl0 : (⟨bindParams (xs.take C.nParam) (full.take C.nParam), 0, 0, false⟩ : Loc) = l0
  generalize hlive : elements (eb.fv ∩ xs.toFinset) = live at htr ⊢
  generalize hh0 : h.setFrame d ⟨max live.length n, 0, none, fun _ => none⟩ = h0
  have hb0 : Below d h0 := by rw [← hh0]; exact hb.setFrame
  have hk0 : Keeps G S.cenv B d h h0 := by rw [← hh0]; exact .setFrame
  rw [exec_seq (l' := { l0 with alloc := h0.alloc }) (h' := h0) (by simp only [exec])]
  rw [exec_seq (l' := { l0 with alloc := h0.alloc, limit := h0.limit }) (h' := h0) (by simp only [exec])]
  rw [exec_seq (l' := { l0 with alloc := h0.alloc, limit := h0.limit, argsSet := true }) (h' := h0) (by simp only [exec])]
  generalize hl1 : ({ l0 with alloc := h0.alloc, limit := h0.limit, argsSet := true } : Loc) = l1
  have h0args : h0.args = h.args := by rw [← hh0]; rfl
  have hnd := hbv
  rw [List.nodup_append] at hnd
  obtain ⟨hxn, hebn, hxeb⟩ := hnd
  simp only [asgnFunVars, drop_range] at hasgn
  have hlen := asgnFunVars'_len hasgn
  rw [List.length_range'] at hlen
  rw [← hlen] at hasgn
  rw [List.length_drop] at hlen
  have hmx : C.nParam + (xs.drop C.nParam).length ≤ maxArgs ∨ xs.drop C.nParam = [] := by
    by_cases hnp : C.nParam < xs.length
    · left; rw [List.length_drop]; have := har ft; omega
    · right; exact List.drop_eq_nil_of_le (by omega)
  have hfull : ∀ i, i < xs.length → ∃ c, full[i]? = some c := fun i hi =>
    ⟨full[i]'(by omega), List.getElem?_eq_getElem (by omega)⟩
  obtain ⟨l2, q2, hal2, hli2, hin2, hout2⟩ := exec_asgnFunVars' (W := W) (call := ccall) (me := d) hasgn
    (hxn.sublist (List.drop_sublist _ _)) hmx (l := l1) (h := h0) (by rw [← hl1]) (by
      intro i hi
      rw [List.length_drop] at hi
      obtain ⟨c, hc'⟩ := hfull (C.nParam + i) (by omega)
      exact ⟨c, by rw [h0args]; exact hargs _ c (by omega) hc'⟩)
  rw [exec_seq q2]
  have htemps : ∀ (i : Nat) x, xs[i]? = some x → l2.temps x = full[i]? := by
    intro i x hx
    have hilt := (List.getElem?_eq_some_iff.mp hx).1
    by_cases hi : i < C.nParam
    · have hnot : x ∉ xs.drop C.nParam := by
        intro hm
        obtain ⟨j, hj⟩ := List.mem_iff_getElem?.mp hm
        rw [List.getElem?_drop] at hj
        have h1 := List.getElem?_eq_some_iff.mp hx
        have h2 := List.getElem?_eq_some_iff.mp hj
        obtain ⟨p1, p2⟩ := h1
        obtain ⟨p3, p4⟩ := h2
        have := (List.Nodup.getElem_inj_iff hxn).mp (p2.trans p4.symm)
        omega
      rw [hout2 x hnot, ← hl1, ← hl0]
      show bindParams _ _ x = _
      rw [bindParams_nth (i := i) (hxn.sublist (List.take_sublist _ _)) (by simp only [List.length_take]; omega)
        (by rw [List.getElem?_take, if_pos hi]; exact hx), List.getElem?_take, if_pos hi]
    · have := hin2 (i - C.nParam) x (by rw [List.getElem?_drop, show C.nParam + (i - C.nParam) = i by omega]; exact hx)
      rw [show C.nParam + (i - C.nParam) = i by omega] at this
      obtain ⟨c, hc'⟩ := hfull i hilt
      rw [this, h0args, hargs i c (by omega) hc', hc']
  rw [exec_seq (l' := l2) (h' := h0.setFrame d { h0.frames d with next := 0, prev := h0.fp }) (by simp only [exec])]
  generalize hh1 : h0.setFrame d { h0.frames d with next := 0, prev := h0.fp } = h1
  have hb1 : Below d h1 := by rw [← hh1]; exact hb0.setFrame
  have hk1 : Keeps G S.cenv B d h h1 := hk0.trans hb (by rw [← hh1]; exact .setFrame)
  have hmem1 : h1.mem = h.mem := by rw [← hh1, ← hh0]; rfl
  have hok1 : h1.Ok G S.cenv B := by rw [← hh1]; refine Th.Ok.setFrame ?_ hb0; rw [← hh0]; exact hOk.setFrame hb
  have hal1 : h1.alloc = h.alloc := by rw [← hh1, ← hh0]; rfl
  have hli1 : h1.limit = h.limit := by rw [← hh1, ← hh0]; rfl
  have hsz1 : (h1.frames d).size = max live.length n := by rw [← hh1, ← hh0]; simp [Th.setFrame]
  have hrep1 : ∀ v c, h.Rep G S.cenv B v c ↔ h1.Rep G S.cenv B v c := by
    intro v c; unfold Th.Rep; rw [hmem1, hal1, hli1]
  have hpar : ∀ x ∈ xs, ∃ v c, ρ' x = some v ∧ l2.temps x = some c ∧ h1.Rep G S.cenv B v c := by
    intro x hx
    obtain ⟨i, hi⟩ := List.mem_iff_getElem?.mp hx
    have hilt := (List.getElem?_eq_some_iff.mp hi).1
    obtain ⟨c, hc'⟩ := hfull i hilt
    have hv : vs[i]? = some (vs[i]'(by omega)) := List.getElem?_eq_getElem (by omega)
    exact ⟨_, c, by rw [setLists_nth hset hxn hi]; exact hv, by rw [htemps i x hi]; exact hc', (hrep1 _ _).1 (hrep i _ c hv hc')⟩
  have hlivem : ∀ x, x ∈ live ↔ x ∈ eb.fv ∧ x ∈ xs := by
    intro x; rw [← hlive, mem_elements, Finset.mem_inter, List.mem_toFinset]
  rcases exec_gcCall_zero (W := W) (call := ccall) (me := d) hc hW (maxAllocsE eb) live (by rw [← hlive]; exact elements_nodup _)
    l2 h1 (fun x hx => by
      obtain ⟨v, c, _, h2, h3⟩ := hpar x ((hlivem x).1 hx).2
      exact ⟨c, v, h2, h3⟩) (fun _ => by rw [hsz1]; omega) hb1 (by rw [← hh1]; simp [Th.setFrame])
    (by rw [hal2, ← hl1, ← hh1]; rfl) (by rw [hli2, ← hl1, ← hh1]; rfl) (by rw [hal1, hli1]; exact hle) hok1 with q | q
  · rw [exec_seq_stop q (by intro _ _ h; cases h)]
    exact .abort
  · obtain ⟨l', h', q, hk, hp, hsz, hroom, hres', hok'⟩ := q
    rw [exec_seq q]
    have hsy : h'.sync l' = h' := by unfold Th.sync; rw [hres'.alloc, hres'.limit]
    have hk' := hk1.trans hb hk
    refine Sim.pre hb hk' ?_
    have hloc : ∀ y, y ∈ xs.toFinset ∪ (localsE eb).toFinset → y ∉ B.names := by
      intro y hy
      simp only [Finset.mem_union, List.mem_toFinset] at hy
      refine hdis y ?_
      rcases hy with hy | hy
      · simp [hy]
      · simp [(localsE_bv eb).subset hy]
    have := trE_sim (W := W) (me := d) hS hc hW hP hG har hfe hres hloc hcall eb 0 body n htr hok
      (hebn.sublist (localsE_bv eb)) (fun x hx => by
        have hx' := (localsE_bv eb).subset hx
        refine ⟨fun hf => ?_, hdis x (by simp [hx']), by simp [hx]⟩
        rcases hfv x hf with h1 | h1
        · exact hxeb x h1 x hx' rfl
        · exact hdis x (by simp [hx']) h1) ρ' l' h' (by
        refine ⟨?_, hres'.limit, by rw [hres'.alloc], by rw [hres'.alloc, hres'.limit]; exact hroom, hp, hk.below hb1, by rw [hsy]; exact hok'⟩
        intro y hy
        rcases hfv y hy with hyx | hyf
        · have hyn : y ∉ B.names := hdis y (by simp [hyx])
          obtain ⟨v, c, h2, h3, h4⟩ := hpar y hyx
          obtain ⟨c', h5, h6⟩ := hres'.kept y ((hlivem y).2 ⟨hy, hyx⟩) c v h3 h4
          refine ⟨v, c', h2, by rw [valOf, if_neg hyn]; exact h5, ?_, .inr (by simp [hyx])⟩
          rw [hres'.alloc, hres'.limit]; exact h6
        · have hyx : y ∉ xs := fun hx => hdis y (by simp [hx]) hyf
          exact ⟨_, _, by rw [setLists_not_mem hset y hyx, defFuns_mem hyf], by rw [valOf, if_pos hyf], .fn hyf, .inl hyf⟩)
        (by rw [hsz, hsz1]; omega)
    rw [hsy] at this
    exact this

theorem findFun_trDefs {fns} : ∀ {B' : Defs} {P}, trDefs C fenv fns B' = some P → ∀ {f ft xs eb},
    findDef f B' = some (ft, xs, eb) → ∃ F, findFun f P = some F ∧ trDef C fenv fns f ft xs eb = some F := by
  intro B'
  induction B' using Defs.ind with
  | nil => intro P _ f ft xs eb h; simp [findDef] at h
  | cons g gt ys e B' ih =>
    intro P hP f ft xs eb h
    simp only [trDefs] at hP
    split at hP
    case h_2 => cases hP
    rename_i P' F' h1 h2
    simp only [Option.some.injEq] at hP
    subst hP
    have hn : F'.name = g := by
      simp only [trDef] at h2
      split at h2
      · cases h2
      split at h2
      · simp only [Option.some.injEq] at h2; subst h2; rfl
      · cases h2
    simp only [findDef] at h
    split at h
    · rename_i he
      subst he
      cases h
      exact ⟨F', by simp only [findFun, if_pos hn], h2⟩
    · rename_i he
      obtain ⟨F, h3, h4⟩ := ih h1 h
      exact ⟨F, by simp only [findFun]; rw [if_neg (by rw [hn]; exact fun h => he h.symm)]; exact h3, h4⟩

theorem findDef_ok {cenv} : ∀ {B' : Defs}, SeenB cenv B' → ∀ {f ft xs eb}, findDef f B' = some (ft, xs, eb) →
    SeenE cenv eb := by
  intro B'
  induction B' using Defs.ind with
  | nil => intro _ f ft xs eb h; simp [findDef] at h
  | cons g gt ys e B' ih =>
    intro hok f ft xs eb h
    simp only [SeenB] at hok
    simp only [findDef] at h
    split at h
    · cases h; exact hok.2.1
    · exact ih hok.2.2 h

/-- What the functions of the program guarantee to any caller. -/
def CallAny (G : HeapI) (cenv : Ctor.PMap Ctor.Info) (B : Defs) (np : Nat) (scall : Env → Exp → Res)
    (ccall : Nat → Var → List CVal → Th → Out) : Prop :=
  ∀ f ft xs eb vs (full : List CVal) h d ρ', findDef f B = some (ft, xs, eb) →
    setLists xs vs (defFuns B B emp emp) = some ρ' → full.length = vs.length →
    (∀ (i : Nat) v c, vs[i]? = some v → full[i]? = some c → h.Rep G cenv B v c) →
    (∀ (i : Nat) c, np ≤ i → full[i]? = some c → h.args i = some c) → Below d h → h.alloc ≤ h.limit →
    h.Ok G cenv B → Sim G cenv B d h (scall ρ' eb) (ccall d f (full.take np) h)

/-- All functions of the program, at every number of nested calls. -/
theorem callC_any (hS : C.cenv = S.cenv) (hc : CtorsOk S.cenv) (hW : GcOk G S.cenv B W) (hP : PrimsOk G S C.prims B W)
    (hG : G.Laws S.cenv B) (har : ∀ t, arOf fenv t ≤ maxArgs) (hfe : FenvOk (arOf fenv) fenv) (hres : C.result ∉ B.names) {P : List CFun}
    (htr : trDefs C fenv B.names B = some P) (hok : SeenB S.cenv B) (hbv : B.bv.Nodup) (hfv : B.fv = ∅) :
    ∀ n, CallAny G S.cenv B C.nParam (callAt S n) (callC W P n) := by
  intro n
  induction n with
  | zero =>
    intro f ft xs eb vs full h d ρ' _ _ _ _ _ _ _ _
    exact .inr rfl
  | succ n ih =>
    intro f ft xs eb vs full h d ρ' hfd hset hfl hrep hargs hb hle hOk
    obtain ⟨F, h1, h2⟩ := findFun_trDefs htr hfd
    have hoke := calls_trDef hfe h2 (findDef_ok hok hfd)
    show Sim G S.cenv B d h (run S n ρ' eb) (callC W P (n + 1) d f (full.take C.nParam) h)
    rw [run_callAt, callC, h1]
    obtain ⟨p1, p2, p3⟩ := params_of_nodup hbv f ft xs eb (mem_of_findDef hfd)
    refine trDef_sim hS hc hW hP hG har hfe hres (ar := arOf fenv)
      (fun f ft xs eb vs full h d ρ' a1 _ a2 => ih f ft xs eb vs full h d ρ' a1 a2) h2 hoke (hbv.sublist (findDef_bv hfd)) ?_ ?_ hset hfl hrep hargs hb hle hOk
    · intro y hy
      simp only [List.mem_append] at hy
      exact hy.elim (p2 y) (p3 y)
    · intro y hy
      rcases fv_body hfd y hy with h | h | h
      · exact .inl h
      · exact .inr h
      · rw [hfv] at h; simp at h

/-- The same for callers that pass as many arguments as the tag says. -/
theorem callC_ok (hS : C.cenv = S.cenv) (hc : CtorsOk S.cenv) (hW : GcOk G S.cenv B W) (hP : PrimsOk G S C.prims B W)
    (hG : G.Laws S.cenv B) (har : ∀ t, arOf fenv t ≤ maxArgs) (hfe : FenvOk (arOf fenv) fenv) (hres : C.result ∉ B.names) {P : List CFun}
    (htr : trDefs C fenv B.names B = some P) (hok : SeenB S.cenv B) (hbv : B.bv.Nodup) (hfv : B.fv = ∅) (n : Nat) :
    CallOk G S.cenv B (arOf fenv) C.nParam (callAt S n) (callC W P n) :=
  fun f ft xs eb vs full h d ρ' a1 _ a2 => callC_any hS hc hW hP hG har hfe hres htr hok hbv hfv n f ft xs eb vs full h d ρ' a1 a2

/-- Whole programs. -/
theorem compileC_sim {e : Exp} {body : Var} {M} (hS : C.cenv = S.cenv) (hc : CtorsOk S.cenv) (hW : GcOk G S.cenv B W)
    (hP : PrimsOk G S C.prims B W) (hG : G.Laws S.cenv B) (hres : C.result ∉ B.names)
    (hM : compileC C body (.fn B e) = some M) (hok : SeenE S.cenv (.fn B e)) (hbv : (Exp.fn B e).bv.Nodup)
    (hfv : (Exp.fn B e).fv = ∅) (n d : Nat) (h : Th) (hb : Below d h) (hle : h.alloc ≤ h.limit)
    (hOk : h.Ok G S.cenv B) :
    Sim G S.cenv B d h (run S n emp (.fn B e)) (runC W M n d h) := by
  have hfe : FenvOk (arOf (funEnv (.fn B e))) (funEnv (.fn B e)) := (funEnv_wf hok).ok
  have har : ∀ t, arOf (funEnv (.fn B e)) t ≤ maxArgs := (funEnv_wf hok).le
  simp only [compileC] at hM
  split at hM
  case isFalse => cases hM
  split at hM
  case h_2 => cases hM
  rename_i P s m hPs htr
  simp only [Option.some.injEq] at hM
  subst hM
  simp only [SeenE] at hok
  have hoke := calls_trE hfe e _ _ _ htr hok.2
  simp only [Exp.bv] at hbv
  simp only [Exp.fv] at hfv
  have hBfv : B.fv = ∅ := by
    rw [Finset.eq_empty_iff_forall_notMem] at hfv ⊢
    intro y hy
    refine hfv y ?_
    simp only [Defs.fv, Finset.mem_sdiff] at hy
    simp only [Finset.mem_sdiff, Finset.mem_union]
    exact ⟨.inl hy.1, hy.2⟩
  have hnd := hbv
  rw [List.nodup_append] at hnd
  obtain ⟨hBn, hen, hBe⟩ := hnd
  have hcall := callC_ok hS hc hW hP hG har hfe hres hPs hok.1 hBn hBfv n
  rw [run_callAt]
  simp only [evalE, runC, enter, List.length_nil, if_true]
  apply unbreak_enter
  generalize hl0 : (⟨bindParams [] [], 0, 0, false⟩ : Loc) = l0
  generalize hh0 : h.setFrame d ⟨m, 0, none, fun _ => none⟩ = h0
  have hb0 : Below d h0 := by rw [← hh0]; exact hb.setFrame
  have hk0 : Keeps G S.cenv B d h h0 := by rw [← hh0]; exact .setFrame
  rw [exec_seq (l' := { l0 with alloc := h0.alloc }) (h' := h0) (by simp only [exec])]
  rw [exec_seq (l' := { l0 with alloc := h0.alloc, limit := h0.limit }) (h' := h0) (by simp only [exec])]
  rw [exec_seq (l' := { l0 with alloc := h0.alloc, limit := h0.limit, argsSet := true }) (h' := h0) (by simp only [exec])]
  generalize hl1 : ({ l0 with alloc := h0.alloc, limit := h0.limit, argsSet := true } : Loc) = l1
  rw [exec_seq (l' := l1) (h' := h0.setFrame d { h0.frames d with next := 0, prev := h0.fp }) (by simp only [exec])]
  generalize hh1 : h0.setFrame d { h0.frames d with next := 0, prev := h0.fp } = h1
  have hb1 : Below d h1 := by rw [← hh1]; exact hb0.setFrame
  have hk1 : Keeps G S.cenv B d h h1 := hk0.trans hb (by rw [← hh1]; exact .setFrame)
  have hok1 : h1.Ok G S.cenv B := by rw [← hh1]; refine Th.Ok.setFrame ?_ hb0; rw [← hh0]; exact hOk.setFrame hb
  have hal1 : h1.alloc = h.alloc := by rw [← hh1, ← hh0]; rfl
  have hli1 : h1.limit = h.limit := by rw [← hh1, ← hh0]; rfl
  have hsz1 : (h1.frames d).size = m := by rw [← hh1, ← hh0]; simp [Th.setFrame]
  rcases exec_gcCall_zero (W := W) (call := callC W P n) (me := d) hc hW (maxAllocsE e) [] List.nodup_nil
    l1 h1 (fun x hx => by cases hx) (fun _ => by simp) hb1 (by rw [← hh1]; simp [Th.setFrame])
    (by rw [← hl1, ← hh1]; rfl) (by rw [← hl1, ← hh1]; rfl) (by rw [hal1, hli1]; exact hle) hok1 with q | q
  · rw [exec_seq_stop q (by intro _ _ h; cases h)]
    exact .abort
  · obtain ⟨l', h', q, hk, hp, hsz, hroom, hres', hok'⟩ := q
    rw [exec_seq q]
    have hsy : h'.sync l' = h' := by unfold Th.sync; rw [hres'.alloc, hres'.limit]
    refine Sim.pre hb (hk1.trans hb hk) ?_
    have hloc : ∀ y ∈ localsE e, y ∉ B.names := by
      intro y hy hn
      exact hBe y ((names_bv B).subset hn) y ((localsE_bv e).subset hy) rfl
    have hfe' : ∀ y ∈ e.fv, y ∈ B.names := by
      intro y hy
      by_contra hn
      rw [Finset.eq_empty_iff_forall_notMem] at hfv
      exact hfv y (by simp [hy, hn])
    have := trE_sim (W := W) (me := d) hS hc hW hP hG har hfe hres (loc := (localsE e).toFinset)
      (fun y hy => hloc y (List.mem_toFinset.1 hy)) hcall e 0 s m htr hoke
      (hen.sublist (localsE_bv e)) (fun x hx => ⟨fun hf => hloc x hx (hfe' x hf), hloc x hx, by simp [hx]⟩)
      (defFuns B B emp emp) l' h' (by
        refine ⟨?_, hres'.limit, by rw [hres'.alloc], by rw [hres'.alloc, hres'.limit]; exact hroom, hp, hk.below hb1, by rw [hsy]; exact hok'⟩
        intro y hy
        have hyf := hfe' y hy
        exact ⟨_, _, defFuns_mem hyf, by rw [valOf, if_pos hyf], .fn hyf, .inl hyf⟩)
      (by rw [hsz, hsz1])
    rw [hsy] at this
    exact this

end CGen
