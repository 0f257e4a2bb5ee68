import Verif.CGen.Cps.Spec

/-! # Simulation for the C code of CPS programs -/

namespace CGen.Cps

open ANF

variable {B : Defs} {W : VWorld} {vcall : Var → List CVal → Th → VOut} {C : Cfg} {fenv : FEnv} {fns : List Var} {S : Sig}
  {ar : Tag → Nat}

theorem execV_seq {a b l h l' h'} (e : execV W vcall a l h = .norm l' h') :
    execV W vcall (.seq a b) l h = execV W vcall b l' h' := by
  simp only [execV, e]

theorem execV_seq_stop {a b l h o} (e : execV W vcall a l h = o) (ho : ∀ l h, o ≠ .norm l h) :
    execV W vcall (.seq a b) l h = o := by
  cases o with
  | norm l h => exact absurd rfl (ho l h)
  | _ => simp only [execV, e]

theorem execV_base {s l h} : execV W vcall (.base s) l h = exec W.base noCall 0 s l h := by simp only [execV]

theorem execV_saveRegs {l : Loc} {h : Th} : execV W vcall saveRegs l h = .norm l (h.sync l) := by
  simp only [saveRegs, execV, exec, Th.sync]

theorem execV_loadRegs {l : Loc} {h : Th} :
    execV W vcall loadRegs l h = .norm { l with alloc := h.alloc, limit := h.limit, argsSet := true } h := by
  simp only [loadRegs, execV, exec]

/-! ## Switches -/

/-- A switch: first the matching label, then the default. -/
def execVSw (W : VWorld) (vcall : Var → List CVal → Th → VOut) (z : Int) (ls : VL) (l : Loc) (h : Th) : Out :=
  match execVCase W vcall z ls l h with
  | some o => unbreak o
  | none => match execVDefault W vcall ls l h with
    | some o => unbreak o
    | none => .norm l h

/-- The outcome does not break. -/
def NoBrk : Out → Prop
  | .brk _ _ => False
  | _ => True

theorem execV_brk {s l h} (hf : NoBrk (execV W vcall s l h)) :
    unbreak (execV W vcall (.seq s .brk) l h) = execV W vcall s l h ∧ ∀ l' h', execV W vcall (.seq s .brk) l h ≠ .norm l' h' := by
  simp only [execV]
  generalize execV W vcall s l h = o at hf
  cases o with
  | brk l h => exact absurd hf (by simp [NoBrk])
  | _ => exact ⟨rfl, fun _ _ h => by cases h⟩

theorem execVSw_default {z s l h} (hf : NoBrk (execV W vcall s l h)) :
    execVSw W vcall z (.cons none (.seq s .brk) .nil) l h = execV W vcall s l h := by
  obtain ⟨h1, h2⟩ := execV_brk hf
  unfold execVSw
  simp only [execVCase, execVDefault, reduceCtorEq, if_false, if_true]
  rw [← h1]

theorem execVSw_hit {z s ls l h} (hf : NoBrk (execV W vcall s l h)) :
    execVSw W vcall z (.cons (some z) (.seq s .brk) ls) l h = execV W vcall s l h := by
  obtain ⟨h1, h2⟩ := execV_brk hf
  unfold execVSw
  simp only [execVCase, if_true]
  rw [← h1]

theorem execVSw_miss {z z' s ls l h} (hz : z' ≠ z) :
    execVSw W vcall z (.cons (some z') s ls) l h = execVSw W vcall z ls l h := by
  unfold execVSw
  simp only [execVCase, execVDefault, Option.some.injEq, hz, if_false, reduceCtorEq]

/-- The switch selected by the representation of a constructor runs the branch of that constructor. -/
theorem trVs_switch (hc : CtorsOk C.cenv) {t : Tag} {i : Ctor.Info} (hi : C.cenv t = some i) :
    ∀ {bs : Brs} {ls ls' e}, trVs C fenv fns bs = some (ls, ls') →
    (∀ t' ∈ bs.tags, ∃ i', C.cenv t' = some i' ∧ i.indTag = i'.indTag) → findTag t bs = some e →
    ∃ s, trV C fenv fns e = some s ∧
      (i.arity ≠ 0 → ls ≠ .nil ∧ ∀ l h, NoBrk (execV W vcall s l h) →
        execVSw W vcall (((i.arity * 1024 + i.ordinal : Int)) % 256) ls l h = execV W vcall s l h) ∧
      (i.arity = 0 → ls' ≠ .nil ∧ ∀ l h, NoBrk (execV W vcall s l h) →
        execVSw W vcall (((2 * i.ordinal + 1 : Int)) / 2) ls' l h = execV W vcall s l h) := by
  intro bs
  induction bs using Brs.ind with
  | nil => intro ls ls' e _ _ h; simp [findTag] at h
  | cons t' e' bs ih =>
    intro ls ls' e htr htags hf
    simp only [trVs] at htr
    split at htr
    case h_2 => cases htr
    rename_i s l1 l2 h1 h2
    obtain ⟨i', hi', hind⟩ := htags t' (by simp [Brs.tags])
    have hrep : ctorRep C.cenv t' = some (if i'.arity = 0 then .enum i'.ordinal else .boxed i'.ordinal i'.arity) := by
      simp only [ctorRep, hi']
    rw [hrep] at htr
    simp only [findTag] at hf
    by_cases htt : t' = t
    · rw [if_pos htt] at hf
      cases hf
      subst htt
      rw [hi] at hi'
      cases hi'
      by_cases ha : i.arity = 0
      · rw [if_pos ha] at htr
        simp only [] at htr
        split at htr
        · simp only [Option.some.injEq, Prod.mk.injEq] at htr
          obtain ⟨rfl, rfl⟩ := htr
          refine ⟨s, h1, fun h => absurd ha h, fun _ => ⟨by simp, fun l h hfin => execVSw_default hfin⟩⟩
        · simp only [Option.some.injEq, Prod.mk.injEq] at htr
          obtain ⟨rfl, rfl⟩ := htr
          exact ⟨s, h1, fun h => absurd ha h, fun _ => ⟨by simp, fun l h hfin => execVSw_hit hfin⟩⟩
      · rw [if_neg ha] at htr
        simp only [] at htr
        split at htr
        · simp only [Option.some.injEq, Prod.mk.injEq] at htr
          obtain ⟨rfl, rfl⟩ := htr
          exact ⟨s, h1, fun _ => ⟨by simp, fun l h hfin => execVSw_default hfin⟩, fun h => absurd h ha⟩
        · simp only [Option.some.injEq, Prod.mk.injEq] at htr
          obtain ⟨rfl, rfl⟩ := htr
          exact ⟨s, h1, fun _ => ⟨by simp, fun l h hfin => execVSw_hit hfin⟩, fun h => absurd h ha⟩
    · rw [if_neg htt] at hf
      obtain ⟨s', hs', hbox, hen⟩ := ih h2 (fun u hu => htags u (by simp [Brs.tags, hu])) hf
      have hord : (i.arity = 0 ↔ i'.arity = 0) → i'.ordinal ≠ i.ordinal := fun hab hoo =>
        htt (hc.distinct t' t i' i hi' hi hind.symm hab.symm hoo)
      by_cases ha' : i'.arity = 0
      · rw [if_pos ha'] at htr
        simp only [] at htr
        split at htr
        · simp only [Option.some.injEq, Prod.mk.injEq] at htr
          obtain ⟨rfl, rfl⟩ := htr
          exact ⟨s', hs', hbox, fun h => absurd rfl (hen h).1⟩
        · simp only [Option.some.injEq, Prod.mk.injEq] at htr
          obtain ⟨rfl, rfl⟩ := htr
          refine ⟨s', hs', hbox, fun h => ⟨by simp, fun l hh hfin => ?_⟩⟩
          rw [execVSw_miss ?_]
          · exact (hen h).2 l hh hfin
          · have := hord (by simp [h, ha'])
            simp only [Rep.tag]
            omega
      · rw [if_neg ha'] at htr
        simp only [] at htr
        split at htr
        · simp only [Option.some.injEq, Prod.mk.injEq] at htr
          obtain ⟨rfl, rfl⟩ := htr
          exact ⟨s', hs', fun h => absurd rfl (hbox h).1, hen⟩
        · simp only [Option.some.injEq, Prod.mk.injEq] at htr
          obtain ⟨rfl, rfl⟩ := htr
          refine ⟨s', hs', fun h => ⟨by simp, fun l hh hfin => ?_⟩, hen⟩
          rw [execVSw_miss ?_]
          · exact (hbox h).2 l hh hfin
          · have := hord (by simp [h, ha'])
            have h1 := hc.small t i hi h
            have h2 := hc.small t' i' hi' ha'
            simp only [Rep.tag]
            omega

/-! ## The body of a function -/

theorem findTag_allocsV : ∀ {bs : Brs} {t e}, findTag t bs = some e → maxAllocsV e ≤ maxAllocsVs bs := by
  intro bs
  induction bs using Brs.ind with
  | nil => intro t e h; simp [findTag] at h
  | cons t' e' bs ih =>
    intro t e h
    simp only [findTag] at h
    simp only [maxAllocsVs]
    split at h
    · cases h; omega
    · have := ih h; omega

theorem findTag_plain {prims} : ∀ {bs : Brs} {t e}, findTag t bs = some e → PlainBs prims bs → PlainE prims e := by
  intro bs
  induction bs using Brs.ind with
  | nil => intro t e h; simp [findTag] at h
  | cons t' e' bs ih =>
    intro t e h hok
    simp only [findTag] at h
    simp only [PlainBs] at hok
    split at h
    · cases h; exact hok.1
    · exact ih h hok.2

/-- What holds when the code of a term whose free variables are `X` starts. -/
structure InvV (cenv : Ctor.PMap Ctor.Info) (B : Defs) (X : Finset Var) (need : Nat) (ρ : Env) (l : Loc) (h : Th) : Prop where
  vars : ∀ y ∈ X, ∃ v c, ρ y = some v ∧ valOf B.names l y = some c ∧ VRep .top cenv B h.mem l.alloc l.limit v c
  lim : l.limit = h.limit
  low : h.alloc ≤ l.alloc
  room : l.alloc + need ≤ l.limit
  args : l.argsSet = true

theorem InvV.vals {cenv X need ρ l h} (hI : InvV cenv B X need ρ l h) : ∀ {ys : List Var}, (∀ y ∈ ys, y ∈ X) →
    ∃ vs cs, getList ρ ys = some vs ∧ valsOf B.names l ys = some cs ∧ cs.length = vs.length ∧
      ∀ (i : Nat) v c, vs[i]? = some v → cs[i]? = some c → VRep .top cenv B h.mem l.alloc l.limit v c := by
  intro ys
  induction ys with
  | nil => intro _; exact ⟨[], [], rfl, rfl, rfl, fun i v c h => by simp at h⟩
  | cons y ys ih =>
    intro hy
    obtain ⟨vs, cs, h1, h2, h3, h4⟩ := ih (fun z hz => hy z (List.mem_cons_of_mem _ hz))
    obtain ⟨v, c, e1, e2, hr⟩ := hI.vars y (hy y (by simp))
    refine ⟨v :: vs, c :: cs, by simp only [getList, e1, h1], by simp only [valsOf, e2, h2], by simp [h3], ?_⟩
    intro i w d hw hd
    cases i with
    | zero =>
      simp only [List.getElem?_cons_zero, Option.some.injEq] at hw hd
      subst hw; subst hd; exact hr
    | succ i => exact h4 i w d (by simpa using hw) (by simpa using hd)

/-- Binding a variable, possibly after allocating. -/
theorem InvV.bind {cenv X need ρ l h} (hI : InvV cenv B X need ρ l h) {X1 : Finset Var} {need1 : Nat} {x : Var} {v c}
    {l1 : Loc} {h1 : Th} (hx1 : l1.temps x = some c) (ho : ∀ y, y ≠ x → l1.temps y = l.temps y)
    (hr : VRep .top cenv B h1.mem l1.alloc l1.limit v c)
    (hm : ∀ w d, VRep .top cenv B h.mem l.alloc l.limit w d → VRep .top cenv B h1.mem l1.alloc l1.limit w d)
    (ha : h1.alloc = h.alloc) (hl : h1.limit = h.limit) (hl1 : l1.limit = l.limit) (hla : l.alloc ≤ l1.alloc)
    (hroom : l1.alloc + need1 ≤ l1.limit) (hs : l1.argsSet = l.argsSet)
    (hX : ∀ y ∈ X1, y = x ∨ y ∈ X) (hxf : x ∉ B.names) :
    InvV cenv B X1 need1 (ρ.set x v) l1 h1 := by
  refine ⟨?_, by rw [hl1, hl]; exact hI.lim, by rw [ha]; exact hI.low.trans hla, hroom, hs.trans hI.args⟩
  intro y hy
  by_cases hyx : y = x
  · subst hyx
    exact ⟨v, c, set_self, by rw [valOf, if_neg hxf]; exact hx1, hr⟩
  · obtain ⟨w, d, e1, e2, e3⟩ := hI.vars y ((hX y hy).resolve_left hyx)
    exact ⟨w, d, by rw [set_other hyx]; exact e1, by rw [valOf_congr (ho y hyx)]; exact e2, hm w d e3⟩

/-- What the functions called have to guarantee, if they are called with as many arguments as their tag says. -/
def CallOkV (cenv : Ctor.PMap Ctor.Info) (B : Defs) (ar : Tag → Nat) (np : Nat) (scall : Env → Exp → Res)
    (vcall : Var → List CVal → Th → VOut) : Prop :=
  ∀ f ft xs eb vs (full : List CVal) h ρ', findDef f B = some (ft, xs, eb) →
    vs.length = ar ft → setLists xs vs (defFuns B B emp emp) = some ρ' → full.length = vs.length →
    (∀ (i : Nat) v c, vs[i]? = some v → full[i]? = some c → h.Rep .top cenv B v c) →
    (∀ (i : Nat) c, np ≤ i → full[i]? = some c → h.args i = some c) → h.alloc ≤ h.limit →
    SimV cenv B (scall ρ' eb) (vcall f (full.take np) h)

/-- The same for statements. -/
def SimS (cenv : Ctor.PMap Ctor.Info) (B : Defs) : Res → Out → Prop
  | .val v, o => o = .abort ∨ ∃ c l' h', o = .norm l' h' ∧ h'.args 1 = some c ∧ h'.Rep .top cenv B v c ∧ h'.alloc ≤ h'.limit
  | .oot, o => o = .abort ∨ o = .oot
  | .stuck, _ => True

theorem SimV.after {cenv r l} {o : VOut} (h : SimV cenv B r o) : SimS cenv B r (afterVoid l o) := by
  cases r with
  | val v =>
    rcases h with rfl | ⟨c, h', rfl, h1⟩
    · exact .inl rfl
    · exact .inr ⟨c, l, h', rfl, h1⟩
  | oot =>
    rcases h with rfl | rfl
    · exact .inl rfl
    · exact .inr rfl
  | stuck => trivial

theorem SimS.abort {cenv r} : SimS cenv B r .abort := by
  cases r with
  | val v => exact .inl rfl
  | oot => exact .inl rfl
  | stuck => trivial

theorem SimS.noBrk {r o cenv} (hs : SimS cenv B r o) (hr : r ≠ .stuck) : NoBrk o := by
  cases r with
  | val v => rcases hs with rfl | ⟨_, _, _, rfl, _⟩ <;> trivial
  | oot => rcases hs with rfl | rfl <;> trivial
  | stuck => exact absurd rfl hr

/-- The body of a function. -/
theorem trV_sim (hS : C.cenv = S.cenv) (hc : CtorsOk S.cenv) (hP : PrimsOk .top S C.prims B W.base)
    (har : ∀ t, ar t ≤ maxArgs) (hfe : FenvOk ar fenv) {scall : Env → Exp → Res}
    (hcall : CallOkV S.cenv B ar C.nParam scall vcall) : ∀ (e : Exp) (s : VStmt),
    trV C fenv B.names e = some s → OkE S.cenv ar e → PlainE C.prims e → (localsE e).Nodup →
    (∀ x ∈ localsE e, x ∉ e.fv ∧ x ∉ B.names) → ∀ ρ l h, InvV S.cenv B e.fv (maxAllocsV e) ρ l h →
    SimS S.cenv B (evalE S scall e ρ) (execV W vcall s l h)
  | .constr x t ys e, s, htr, hok, hpl, hnd, hlv, ρ, l, h, hI => by
    simp only [trV] at htr
    split at htr
    case h_2 => cases htr
    rename_i p s' hp htr'
    simp only [Option.some.injEq] at htr
    subst htr
    simp only [OkE] at hok
    simp only [PlainE] at hpl
    obtain ⟨⟨i, hi, hia⟩, hok'⟩ := hok
    simp only [localsE, List.nodup_cons] at hnd
    obtain ⟨hxfv, hxfn⟩ := hlv x (by simp [localsE])
    simp only [Exp.fv, Finset.mem_union, List.mem_toFinset, Finset.mem_erase, not_or] at hxfv
    have hsub : ∀ y ∈ localsE e, y ∉ e.fv ∧ y ∉ B.names := by
      intro y hy
      have := hlv y (by simp [localsE, hy])
      refine ⟨fun hf => this.1 ?_, this.2⟩
      simp only [Exp.fv, Finset.mem_union, Finset.mem_erase]
      exact .inr ⟨fun he => hnd.1 (he ▸ hy), hf⟩
    obtain ⟨vs, cs, hv, hcs, hl, hrep⟩ := hI.vals (ys := ys) (fun y hy => by simp [Exp.fv, hy])
    obtain ⟨hcl1, hcl2⟩ := valsOf_some hcs
    have hvl := getList_length hv
    have hX : ∀ y ∈ e.fv, y = x ∨ y ∈ (Exp.constr x t ys e).fv := by
      intro y hy
      by_cases h : y = x
      · exact .inl h
      · exact .inr (by simp [Exp.fv, h, hy])
    simp only [evalE, hv]
    unfold assignConstructor at hp
    rw [hS, ctorRep, hi] at hp
    simp only [] at hp
    by_cases ha : i.arity = 0
    · rw [if_pos ha] at hp
      simp only [Option.some.injEq] at hp
      subst hp
      have hys : ys = [] := List.eq_nil_of_length_eq_zero (by omega)
      subst hys
      simp only [getList, Option.some.injEq] at hv
      subst hv
      rw [execV_seq (l' := l.setT x (.int (2 * i.ordinal + 1))) (h' := h) (by simp only [execV, exec, evalC, Rep.tag])]
      refine trV_sim hS hc hP har hfe hcall e s' htr' hok' hpl hnd.2 hsub _ _ _ ?_
      refine hI.bind (x := x) (c := .int (2 * i.ordinal + 1)) (by simp [Loc.setT]) (fun y hy => by simp [Loc.setT, hy])
        (.enum hi ha) (fun _ _ h => h) rfl rfl rfl (Nat.le_refl _) ?_ rfl hX hxfn
      have := hI.room; simp only [maxAllocsV] at this; exact this
    · rw [if_neg ha] at hp
      simp only [Option.some.injEq] at hp
      subst hp
      obtain ⟨y0, ys', rfl⟩ : ∃ y0 ys', ys = y0 :: ys' := by
        cases ys with
        | nil => simp at hia; omega
        | cons a b => exact ⟨a, b, rfl⟩
      generalize hys : y0 :: ys' = ys at *
      have hroom : l.alloc + (maxAllocsV e + ys.length + 1) ≤ l.limit := by
        have := hI.room
        rw [← hys] at this ⊢
        simp only [maxAllocsV] at this
        exact this
      have hlim := hI.lim
      have hlow := hI.low
      have q1 : exec W.base noCall 0 (.set x (.alloc 1)) l h = .norm (l.setT x (.ptr (l.alloc + 1))) h := by
        simp only [exec, evalC]
      have q2 : exec W.base noCall 0 (.bump (i.arity + 1)) (l.setT x (.ptr (l.alloc + 1))) h =
          .norm { l.setT x (.ptr (l.alloc + 1)) with alloc := l.alloc + (i.arity + 1) } h := by
        simp only [exec]; rfl
      generalize hl1 : ({ l.setT x (.ptr (l.alloc + 1)) with alloc := l.alloc + (i.arity + 1) } : Loc) = l1 at q2
      have hx1 : l1.temps x = some (.ptr (l.alloc + 1)) := by rw [← hl1]; simp [Loc.setT]
      have ho1 : ∀ y, y ≠ x → l1.temps y = l.temps y := by intro y hy; rw [← hl1]; simp [Loc.setT, hy]
      have hal1 : l1.alloc = l.alloc + (i.arity + 1) := by rw [← hl1]
      have hli1 : l1.limit = l.limit := by rw [← hl1]; rfl
      have hse1 : l1.argsSet = l.argsSet := by rw [← hl1]; rfl
      have q3 : exec W.base noCall 0 (.setField x (-1) (.cst (.int (Rep.boxed i.ordinal i.arity).tag))) l1 h =
          .norm l1 { h with mem := setMem h.mem l.alloc (.int (i.arity * 1024 + i.ordinal)) } := by
        simp only [exec, evalC, hx1, Rep.tag]
        rw [show (((l.alloc + 1 : Nat) : Int) + -1).toNat = l.alloc by omega, if_pos (by omega)]
      have hval1 : ∀ y ∈ ys, valOf B.names l1 y = valOf B.names l y := by
        intro y hy
        exact valOf_congr (ho1 y (fun he => hxfv.1 (he ▸ hy)))
      obtain ⟨mem', q4, hin, hout⟩ := exec_assignFields (W := W.base) (call := noCall) (me := 0) (fns := B.names) hx1 ys 0
        { h with mem := setMem h.mem l.alloc (.int (i.arity * 1024 + i.ordinal)) }
        (fun y hy => by
          rw [hval1 y hy]
          obtain ⟨v, c, _, hc, _⟩ := hI.vars y (by simp [Exp.fv, hy])
          exact ⟨c, hc⟩) (by show h.alloc ≤ _; omega) (by show _ ≤ h.limit; omega)
      rw [execV_seq (l' := l1) (h' := { h with mem := mem' }) (by
        rw [execV_base, exec_seq q1, exec_seq q2, exec_seq q3, q4])]
      have hmemout : ∀ a, a < l.alloc ∨ l.limit ≤ a → mem' a = h.mem a := by
        intro a ha'
        rw [hout a (by omega)]
        simp only [setMem]
        rw [if_neg (by omega)]
      have hmono : ∀ w d, VRep .top S.cenv B h.mem l.alloc l.limit w d → VRep .top S.cenv B mem' l1.alloc l1.limit w d := by
        intro w d hwd
        rw [hal1, hli1]
        exact hwd.mono (by omega) (Nat.le_refl _) hmemout (fun _ _ => trivial)
      have hnew : VRep .top S.cenv B mem' l1.alloc l1.limit (.constr t vs) (.ptr (l.alloc + 1)) := by
        refine .boxed (cs := cs) hi (by omega) (by omega) ⟨by omega, by rw [hal1]; left; omega⟩ ?_ hl ?_ ?_ trivial
        · rw [show l.alloc + 1 - 1 = l.alloc by omega, hout _ (by omega)]
          simp [setMem]
        · intro k c hk
          have hlt := (List.getElem?_eq_some_iff.mp hk).1
          have hyk := List.getElem?_eq_getElem (l := ys) (i := k) (by omega)
          have := hin k _ hyk
          rw [Nat.add_zero] at this
          rw [this, hval1 _ (List.mem_of_getElem? hyk), hcl2 k _ hyk, hk]
        · intro k v c hv' hc'
          exact hmono v c (hrep k v c hv' hc')
      refine trV_sim hS hc hP har hfe hcall e s' htr' hok' hpl hnd.2 hsub _ _ _ ?_
      exact hI.bind (x := x) hx1 ho1 hnew hmono rfl rfl hli1 (by omega) (by omega) hse1 hX hxfn
  | .case y bs, s, htr, hok, hpl, hnd, hlv, ρ, l, h, hI => by
    simp only [trV] at htr
    split at htr
    case h_2 => cases htr
    rename_i ls ls' htr'
    simp only [Option.some.injEq] at htr
    subst htr
    simp only [OkE] at hok
    simp only [PlainE] at hpl
    simp only [localsE] at hnd hlv
    obtain ⟨v, c, e1, e2, hr⟩ := hI.vars y (by simp [Exp.fv])
    simp only [evalE, e1]
    cases v with
    | fn _ _ _ => trivial
    | prim _ => trivial
    | constr t vs =>
      simp only []
      by_cases hcons : consistent S.cenv t bs.tags = true
      case neg => rw [if_neg hcons]; trivial
      rw [if_pos hcons, evalB_findTag]
      cases hft : findTag t bs with
      | none => trivial
      | some e =>
        simp only []
        have hyf : y ∉ B.names := by
          intro hy
          rw [valOf, if_pos hy] at e2
          simp only [Option.some.injEq] at e2
          subst e2
          cases hr
        rw [valOf, if_neg hyf] at e2
        obtain ⟨i, _, hi, _, _⟩ := consistent_all hcons t (findTag_mem hft)
        obtain ⟨s', hs', hbox, hen⟩ := trVs_switch (W := W) (vcall := vcall) (by rw [hS]; exact hc)
          (t := t) (i := i) (by rw [hS]; exact hi) htr' (fun t' ht' => by
            obtain ⟨i1, i', h1, h2, h3⟩ := consistent_all hcons t' ht'
            rw [hi] at h1; cases h1
            exact ⟨i', by rw [hS]; exact h2, h3⟩) hft
        have hlt : sizeOf e < sizeOf (Exp.case y bs) := by
          have := findTag_sizeOf hft
          simp only [Exp.case.sizeOf_spec]; omega
        have hIe : InvV S.cenv B e.fv (maxAllocsV e) ρ l h := by
          refine ⟨fun z hz => hI.vars z ?_, hI.lim, hI.low, ?_, hI.args⟩
          · simp only [Exp.fv, Finset.mem_insert]; exact .inr (findTag_fv hft z hz)
          · have h1 := hI.room
            have h2 := findTag_allocsV hft
            simp only [maxAllocsV] at h1; omega
        have ih := trV_sim hS hc hP har hfe hcall e s' hs' (findTag_ok hft hok) (findTag_plain hft hpl)
          (hnd.sublist (findTag_locals hft)) (fun x hx => by
            have := hlv x ((findTag_locals hft).subset hx)
            refine ⟨fun hf => this.1 ?_, this.2⟩
            simp only [Exp.fv, Finset.mem_insert]; exact .inr (findTag_fv hft x hf)) ρ l h hIe
        by_cases hst : evalE S scall e ρ = .stuck
        · rw [hst]; trivial
        have hfin := ih.noBrk hst
        cases hr with
        | enum g1 g2 =>
          rename_i i1
          rw [hi] at g1; cases g1
          have : execV W vcall (caseSwitchV y ls ls') l h = execV W vcall s' l h := by
            rw [← (hen g2).2 l h hfin]
            simp only [caseSwitchV, execV, e2]
            rw [if_neg (by omega)]
            rfl
          rw [this]
          exact ih
        | boxed g1 g2 g3 g4 g5 g6 g7 g8 g9 =>
          rename_i i1 p cs
          rw [hi] at g1; cases g1
          have hr1 : readAt h.mem p (-1) = some (.int (i.arity * 1024 + i.ordinal)) := by
            have := g4.1
            rw [readAt, if_pos (by omega), show ((p : Int) + -1).toNat = p - 1 by omega]
            exact g5
          have : execV W vcall (caseSwitchV y ls ls') l h = execV W vcall s' l h := by
            rw [← (hbox (by omega)).2 l h hfin]
            simp only [caseSwitchV, execV, evalC, e2, hr1]
            rfl
          rw [this]
          exact ih
  | .proj x t k y e, s, htr, hok, hpl, hnd, hlv, ρ, l, h, hI => by
    simp only [trV] at htr
    split at htr
    case h_2 => cases htr
    rename_i s' htr'
    simp only [Option.some.injEq] at htr
    subst htr
    simp only [OkE] at hok
    simp only [PlainE] at hpl
    simp only [localsE, List.nodup_cons] at hnd
    obtain ⟨_, hxfn⟩ := hlv x (by simp [localsE])
    have hsub : ∀ z ∈ localsE e, z ∉ e.fv ∧ z ∉ B.names := by
      intro z hz
      have := hlv z (by simp [localsE, hz])
      refine ⟨fun hf => this.1 ?_, this.2⟩
      simp only [Exp.fv, Finset.mem_insert, Finset.mem_erase]
      exact .inr ⟨fun he => hnd.1 (he ▸ hz), hf⟩
    obtain ⟨v, c, e1, e2, hr⟩ := hI.vars y (by simp [Exp.fv])
    simp only [evalE, e1]
    cases v with
    | fn _ _ _ => trivial
    | prim _ => trivial
    | constr t' vs =>
      simp only []
      by_cases ht : t' = t
      case neg => rw [if_neg ht]; trivial
      rw [if_pos ht]
      cases hk : vs[k]? with
      | none => trivial
      | some w =>
        simp only []
        cases hr with
        | enum g1 g2 => simp at hk
        | boxed g1 g2 g3 g4 g5 g6 g7 g8 g9 =>
          rename_i i p cs
          have hlt := (List.getElem?_eq_some_iff.mp hk).1
          have hck := List.getElem?_eq_getElem (l := cs) (i := k) (by omega)
          have hyf : y ∉ B.names := by
            intro hy
            rw [valOf, if_pos hy] at e2
            simp at e2
          rw [valOf, if_neg hyf] at e2
          have q : execV W vcall (.base (.set x (.field y k))) l h = .norm (l.setT x cs[k]) h := by
            simp only [execV, exec, evalC, e2]
            rw [readAt, if_pos (by omega), show ((p : Int) + (k : Int)).toNat = p + k by omega, g7 k _ hck]
          rw [execV_seq q]
          refine trV_sim hS hc hP har hfe hcall e s' htr' hok hpl hnd.2 hsub _ _ _ ?_
          refine hI.bind (x := x) (c := cs[k]) (by simp [Loc.setT]) (fun z hz => by simp [Loc.setT, hz])
            (g8 k w _ hk hck) (fun _ _ h => h) rfl rfl rfl (Nat.le_refl _) ?_ rfl ?_ hxfn
          · have := hI.room; simp only [maxAllocsV] at this; exact this
          · intro z hz
            by_cases h : z = x
            · exact .inl h
            · exact .inr (by simp [Exp.fv, h, hz])
  | .letapp x f ft ys e, s, htr, hok, hpl, hnd, hlv, ρ, l, h, hI => by simp [PlainE] at hpl
  | .fn _ _, s, htr, hok, hpl, hnd, hlv, ρ, l, h, hI => by simp [trV] at htr
  | .app f ft ys, s, htr, hok, hpl, hnd, hlv, ρ, l, h, hI => by
    simp only [trV] at htr
    split at htr
    case h_2 => cases htr
    rename_i a ind hfen
    obtain ⟨rfl, rfl⟩ := hfe ft a ind hfen
    split at htr
    case h_2 => cases htr
    rename_i asgn c hasgn hmk
    simp only [Option.some.injEq] at htr
    subst htr
    simp only [OkE] at hok
    simp only [evalE]
    cases hce : callee ρ f ft ys with
    | none => trivial
    | some p =>
      obtain ⟨ρ', eb⟩ := p
      simp only []
      obtain ⟨vs, full, hv, hcs, hl, hrep⟩ := hI.vals (ys := ys) (fun y hy => by simp [Exp.fv, hy])
      obtain ⟨ρ1, B1, f', vs', xs, e1, e2, e3, e4⟩ := callee_some hce
      rw [hv] at e2
      cases e2
      obtain ⟨vf, cf, g1, g2, g3⟩ := hI.vars f (by simp [Exp.fv])
      rw [e1] at g1
      cases g1
      cases g3
      rename_i hfn
      simp only [asgnAppVars, drop_range, Option.map_eq_some_iff] at hasgn
      obtain ⟨st, hst, rfl⟩ := hasgn
      rw [← hok, ← List.length_drop] at hst
      obtain ⟨hcl1, hcl2⟩ := valsOf_some hcs
      have hls : ({ l with argsSet := true } : Loc) = l := by rw [← hI.args]
      have hmx : C.nParam + (ys.drop C.nParam).length ≤ maxArgs ∨ ys.drop C.nParam = [] := by
        by_cases hnp : C.nParam < ys.length
        · left; rw [List.length_drop]; have := har ft; omega
        · right; exact List.drop_eq_nil_of_le (by omega)
      obtain ⟨args', ea, hargs⟩ := exec_asgnAppVars' (W := W.base) (call := noCall) (me := 0) hst hmx
        (l := l) (h := h) hI.args (by
          intro y hy
          obtain ⟨v, c, _, hc, _⟩ := hI.vars y (by simp [Exp.fv, List.mem_of_mem_drop hy])
          exact ⟨c, hc⟩)
      rw [execV_seq (l' := l) (h' := { h with args := args' }) (by
        rw [execV_base, exec_seq (l' := l) (h' := h) (by simp only [exec]; rw [hls])]
        exact ea)]
      rw [execV_seq execV_saveRegs]
      simp only [mkCallV, Option.map_eq_some_iff] at hmk
      obtain ⟨es, hes, rfl⟩ := hmk
      obtain ⟨_, hev⟩ := mkCallVars_spec (me := 0) hes
      have h2 := hev (l := l) (h := ({ h with args := args' } : Th).sync l) (valsOf_take C.nParam hcs)
      simp only [execV]
      rw [h2, evalC_makeVar, g2]
      simp only []
      apply SimV.after
      refine hcall f' ft xs eb vs full _ ρ' e3 (by omega) e4 hl hrep ?_ ?_
      · intro i c hnp hci
        show args' i = some c
        have hlt := (List.getElem?_eq_some_iff.mp hci).1
        have hyi := List.getElem?_eq_getElem (l := ys) (i := i) (by omega)
        have h3 := hargs (i - C.nParam) ys[i] (by rw [List.getElem?_drop, show C.nParam + (i - C.nParam) = i by omega]; exact hyi)
        rw [show C.nParam + (i - C.nParam) = i by omega] at h3
        rw [h3, hcl2 i _ hyi]
        exact hci
      · show l.alloc ≤ l.limit; have := hI.room; omega
  | .primVal x p e, s, htr, hok, hpl, hnd, hlv, ρ, l, h, hI => by
    simp only [trV] at htr
    split at htr
    case h_2 => cases htr
    rename_i s' htr'
    simp only [Option.some.injEq] at htr
    subst htr
    simp only [OkE] at hok
    simp only [PlainE] at hpl
    obtain ⟨⟨k, rfl⟩, hok⟩ := hok
    simp only [localsE, List.nodup_cons] at hnd
    obtain ⟨_, hxfn⟩ := hlv x (by simp [localsE])
    have hsub : ∀ z ∈ localsE e, z ∉ e.fv ∧ z ∉ B.names := by
      intro z hz
      have := hlv z (by simp [localsE, hz])
      refine ⟨fun hf => this.1 ?_, this.2⟩
      simp only [Exp.fv, Finset.mem_erase]
      exact ⟨fun he => hnd.1 (he ▸ hz), hf⟩
    simp only [evalE]
    rw [execV_seq (l' := l.setT x (.int (k * 2 + 1))) (h' := h) (by simp only [compilePrimV, execV, exec, evalC])]
    refine trV_sim hS hc hP har hfe hcall e s' htr' hok hpl hnd.2 hsub _ _ _ ?_
    refine hI.bind (x := x) (c := .int (k * 2 + 1)) (by simp [Loc.setT]) (fun z hz => by simp [Loc.setT, hz])
      .int (fun _ _ h => h) rfl rfl rfl (Nat.le_refl _) ?_ rfl ?_ hxfn
    · have := hI.room; simp only [maxAllocsV] at this; exact this
    · intro z hz
      by_cases h : z = x
      · exact .inl h
      · exact .inr (by simp [Exp.fv, h, hz])
  | .prim x p ys e, s, htr, hok, hpl, hnd, hlv, ρ, l, h, hI => by
    simp only [OkE] at hok
    simp only [PlainE] at hpl
    simp only [localsE, List.nodup_cons] at hnd
    obtain ⟨_, hxfn⟩ := hlv x (by simp [localsE])
    have hsub : ∀ z ∈ localsE e, z ∉ e.fv ∧ z ∉ B.names := by
      intro z hz
      have := hlv z (by simp [localsE, hz])
      refine ⟨fun hf => this.1 ?_, this.2⟩
      simp only [Exp.fv, Finset.mem_union, Finset.mem_erase]
      exact .inr ⟨fun he => hnd.1 (he ▸ hz), hf⟩
    have hXe : ∀ y ∈ e.fv, y = x ∨ y ∈ (Exp.prim x p ys e).fv := by
      intro y hy
      by_cases h : y = x
      · exact .inl h
      · exact .inr (by simp [Exp.fv, h, hy])
    obtain ⟨vs, cs, hv, hcs, hl, hrep⟩ := hI.vals (ys := ys) (fun y hy => by simp [Exp.fv, hy])
    simp only [evalE, hv]
    cases hop : S.op p vs with
    | none => trivial
    | some v =>
      simp only []
      simp only [trV] at htr
      split at htr
      · rename_i as s' hpr has htr'
        simp only [Option.some.injEq] at htr
        subst htr
        obtain ⟨_, hev⟩ := mkCallVars_spec (me := 0) has
        obtain ⟨c, hc1, hc2⟩ := hP.pure p vs v cs h.mem l.alloc l.limit hpr hop hl hrep
        rw [execV_seq (l' := l.setT x c) (h' := h) (by simp only [execV, exec, hev hcs, hc1])]
        refine trV_sim hS hc hP har hfe hcall e s' htr' hok hpl.2 hnd.2 hsub _ _ _ ?_
        refine hI.bind (x := x) (c := c) (by simp [Loc.setT]) (fun z hz => by simp [Loc.setT, hz])
          hc2 (fun _ _ h => h) rfl rfl rfl (Nat.le_refl _) ?_ rfl hXe hxfn
        have := hI.room; simp only [maxAllocsV] at this; exact this
      · rename_i hpr _ _
        exact absurd hpr hpl.1
      · cases htr
  | .halt x, s, htr, hok, hpl, hnd, hlv, ρ, l, h, hI => by
    simp only [trV, Option.some.injEq] at htr
    subst htr
    obtain ⟨v, c, e1, e2, hr⟩ := hI.vars x (by simp [Exp.fv])
    simp only [evalE, e1]
    refine .inr ⟨c, l, { h.sync l with args := setArr h.args 1 c }, ?_, ?_, hr, ?_⟩
    · rw [execV_seq execV_saveRegs, execV_base]
      simp only [exec, evalC_makeVar, e2]
      rw [if_pos ⟨hI.args, by decide⟩]
      rfl
    · simp [setArr]
    · show l.alloc ≤ l.limit; have := hI.room; omega
termination_by e => sizeOf e

end CGen.Cps
