import Verif.CGen.Switch

/-! # Simulation: the generated C code computes what the source program computes -/

namespace CGen

open ANF

variable {G : HeapI} {B : Defs} {W : World} {ccall : Nat → Var → List CVal → Th → Out} {me : Nat}
  {C : Cfg} {fenv : FEnv} {loc : Finset Var} {S : Sig} {ar : Tag → Nat}

mutual
theorem localsE_bv : ∀ e : Exp, (localsE e).Sublist e.bv
  | .constr x _ _ e => by simp only [localsE, Exp.bv]; exact (localsE_bv e).cons₂ x
  | .case _ bs => by simp only [localsE, Exp.bv]; exact localsBs_bv bs
  | .proj x _ _ _ e => by simp only [localsE, Exp.bv]; exact (localsE_bv e).cons₂ x
  | .letapp x _ _ _ e => by simp only [localsE, Exp.bv]; exact (localsE_bv e).cons₂ x
  | .fn B e => by simp only [localsE, Exp.bv]; exact (localsB_bv B).append (localsE_bv e)
  | .app _ _ _ => by simp [localsE, Exp.bv]
  | .primVal x _ e => by simp only [localsE, Exp.bv]; exact (localsE_bv e).cons₂ x
  | .prim x _ _ e => by simp only [localsE, Exp.bv]; exact (localsE_bv e).cons₂ x
  | .halt _ => by simp [localsE, Exp.bv]
theorem localsBs_bv : ∀ bs : Brs, (localsBs bs).Sublist bs.bv
  | .nil => by simp [localsBs, Brs.bv]
  | .cons _ e bs => by simp only [localsBs, Brs.bv]; exact (localsE_bv e).append (localsBs_bv bs)
theorem localsB_bv : ∀ B : Defs, (localsB B).Sublist B.bv
  | .nil => by simp [localsB, Defs.bv]
  | .cons f _ vs e B => by
    simp only [localsB, Defs.bv]
    exact ((List.Sublist.refl vs).append ((localsE_bv e).append (localsB_bv B))).cons f
end

theorem findTag_locals : ∀ {bs : Brs} {t e}, findTag t bs = some e → (localsE e).Sublist (localsBs bs) := by
  intro bs
  induction bs using Brs.ind with
  | nil => intro t e h; simp [findTag] at h
  | cons t' e' bs ih =>
    intro t e h
    simp only [findTag] at h
    simp only [localsBs]
    split at h
    · cases h; exact List.sublist_append_left _ _
    · exact (ih h).trans (List.sublist_append_right _ _)

theorem findTag_allocs : ∀ {bs : Brs} {t e}, findTag t bs = some e → maxAllocsE e ≤ maxAllocsBs bs := by
  intro bs
  induction bs using Brs.ind with
  | nil => intro t e h; simp [findTag] at h
  | cons t' e' bs ih =>
    intro t e h
    simp only [findTag] at h
    simp only [maxAllocsBs]
    split at h
    · cases h; omega
    · have := ih h; omega

theorem findTag_ok {cenv} : ∀ {bs : Brs} {t e}, findTag t bs = some e → OkBs cenv ar bs → OkE cenv ar e := by
  intro bs
  induction bs using Brs.ind with
  | nil => intro t e h; simp [findTag] at h
  | cons t' e' bs ih =>
    intro t e h hok
    simp only [findTag] at h
    simp only [OkBs] at hok
    split at h
    · cases h; exact hok.2.1
    · exact ih h hok.2.2

/-- What holds when the code of a term whose free variables are `X` starts: its variables represent their values and
`need` words are free. -/
structure Inv (G : HeapI) (cenv : Ctor.PMap Ctor.Info) (B : Defs) (loc : Finset Var) (me : Nat) (X : Finset Var) (need : Nat) (ρ : Env)
    (l : Loc) (h : Th) : Prop where
  vars : ∀ y ∈ X, ∃ v c, ρ y = some v ∧ valOf B.names l y = some c ∧ VRep G cenv B h.mem l.alloc l.limit v c ∧
    (y ∈ B.names ∨ y ∈ loc)
  lim : l.limit = h.limit
  low : h.alloc ≤ l.alloc
  room : l.alloc + need ≤ l.limit
  prev : (h.frames me).prev = h.fp
  below : Below me h
  ok : (h.sync l).Ok G cenv B

theorem Below.same {h h' : Th} (hb : Below me h) (h1 : h'.fp = h.fp) (h2 : h'.frames = h.frames) : Below me h' :=
  fun _ hk => hb _ (OnChain.congr' (h := h) h1 hb (fun _ _ => by rw [h2]) hk)

theorem below_sync {h l} (hb : Below me h) : Below me (h.sync l) :=
  fun k hk => hb k (OnChain.congr' (h := h) (h' := h.sync l) rfl hb (fun _ _ => rfl) hk)

theorem Th.Ok.same {cenv} {h h' : Th} (ok : h.Ok G cenv B) (hb : Below me h) (hm : h'.mem = h.mem) (ha : h'.alloc = h.alloc)
    (hl : h'.limit = h.limit) (h1 : h'.fp = h.fp) (h2 : ∀ k, k < me → h'.frames k = h.frames k) : h'.Ok G cenv B :=
  ok.sub hm ha hl (fun k hk => by
    have := OnChain.congr' (h := h) h1 hb (fun j hj => by rw [h2 j hj]) hk
    exact ⟨this, h2 k (hb k this)⟩)

/-- Allocating keeps the state as the collector expects it. -/
theorem Th.Ok.grow {cenv} {h h' : Th} (ok : h.Ok G cenv B) (hg : G.good h'.mem h'.alloc h'.limit)
    (hr : ∀ v c, h.Rep G cenv B v c → h'.Rep G cenv B v c) (hfp : h'.fp = h.fp) (hf : h'.frames = h.frames) : h'.Ok G cenv B := by
  have hch : ∀ k, OnChain h' k → OnChain h k := by
    intro k hk
    induction hk with
    | top e => exact .top (hfp.symm.trans e)
    | step _ e ih => rw [hf] at e; exact .step ih e
  refine ⟨hg, fun k hk => ?_, fun k hk => ?_, fun k hk i hi => ?_⟩
  · rw [hf]; exact ok.size k (hch k hk)
  · rw [hf]; exact ok.down k (hch k hk)
  · rw [hf] at hi ⊢
    obtain ⟨c, v, h1, h2⟩ := ok.roots k (hch k hk) i hi
    exact ⟨c, v, h1, hr v c h2⟩

theorem Inv.vals {cenv X need ρ l h} (hI : Inv G cenv B loc me X need ρ l h) : ∀ {ys : List Var}, (∀ y ∈ ys, y ∈ X) →
    ∃ vs cs, getList ρ ys = some vs ∧ valsOf B.names l ys = some cs ∧ cs.length = vs.length ∧
      ∀ (i : Nat) v c, vs[i]? = some v → cs[i]? = some c → VRep G cenv B h.mem l.alloc l.limit v c := by
  intro ys
  induction ys with
  | nil => intro _; exact ⟨[], [], rfl, rfl, rfl, fun i v c h => by simp at h⟩
  | cons y ys ih =>
    intro hy
    obtain ⟨vs, cs, h1, h2, h3, h4⟩ := ih (fun z hz => hy z (List.mem_cons_of_mem _ hz))
    obtain ⟨v, c, e1, e2, hr, _⟩ := hI.vars y (hy y (by simp))
    refine ⟨v :: vs, c :: cs, by simp only [getList, e1, h1], by simp only [valsOf, e2, h2], by simp [h3], ?_⟩
    intro i w d hw hd
    cases i with
    | zero =>
      simp only [List.getElem?_cons_zero, Option.some.injEq] at hw hd
      subst hw; subst hd; exact hr
    | succ i => exact h4 i w d (by simpa using hw) (by simpa using hd)

/-- Binding a variable, possibly after allocating. -/
theorem Inv.bind {cenv X need ρ l h} (hI : Inv G cenv B loc me X need ρ l h) {X1 : Finset Var} {need1 : Nat} {x : Var} {v c}
    {l1 : Loc} {h1 : Th} (hx1 : l1.temps x = some c) (ho : ∀ y, y ≠ x → l1.temps y = l.temps y)
    (hr : VRep G cenv B h1.mem l1.alloc l1.limit v c)
    (hm : ∀ w d, VRep G cenv B h.mem l.alloc l.limit w d → VRep G cenv B h1.mem l1.alloc l1.limit w d)
    (ha : h1.alloc = h.alloc) (hl : h1.limit = h.limit) (hl1 : l1.limit = l.limit) (hla : l.alloc ≤ l1.alloc)
    (hroom : l1.alloc + need1 ≤ l1.limit) (hfp : h1.fp = h.fp) (hfr : h1.frames = h.frames)
    (hX : ∀ y ∈ X1, y = x ∨ y ∈ X) (hxf : x ∉ B.names) (hxl : x ∈ loc) (hg : G.good h1.mem l1.alloc l1.limit) :
    Inv G cenv B loc me X1 need1 (ρ.set x v) l1 h1 := by
  refine ⟨?_, by rw [hl1, hl]; exact hI.lim, by rw [ha]; exact hI.low.trans hla, hroom, by rw [hfr, hfp]; exact hI.prev, ?_,
    hI.ok.grow hg hm hfp hfr⟩
  · intro y hy
    by_cases hyx : y = x
    · subst hyx
      exact ⟨v, c, set_self, by rw [valOf, if_neg hxf]; exact hx1, hr, .inr hxl⟩
    · obtain ⟨w, d, e1, e2, e3, e4⟩ := hI.vars y ((hX y hy).resolve_left hyx)
      exact ⟨w, d, by rw [set_other hyx]; exact e1, by rw [valOf_congr (ho y hyx)]; exact e2, hm w d e3, e4⟩
  · exact fun k hk => hI.below k (OnChain.congr' hfp hI.below (fun k _ => by rw [hfr]) hk)

/-- What the functions called have to guarantee, if they are called with as many arguments as their tag says. -/
def CallOk (G : HeapI) (cenv : Ctor.PMap Ctor.Info) (B : Defs) (ar : Tag → Nat) (np : Nat) (scall : Env → Exp → Res)
    (ccall : Nat → Var → List CVal → Th → Out) : Prop :=
  ∀ f ft xs eb vs (full : List CVal) h d ρ', findDef f B = some (ft, xs, eb) →
    vs.length = ar ft → setLists xs vs (defFuns B B emp emp) = some ρ' → full.length = vs.length →
    (∀ (i : Nat) v c, vs[i]? = some v → full[i]? = some c → h.Rep G cenv B v c) →
    (∀ (i : Nat) c, np ≤ i → full[i]? = some c → h.args i = some c) → Below d h → h.alloc ≤ h.limit →
    h.Ok G cenv B → Sim G cenv B d h (scall ρ' eb) (ccall d f (full.take np) h)

theorem valsOf_congr {fns} {l l' : Loc} (h : l'.temps = l.temps) : ∀ xs, valsOf fns l' xs = valsOf fns l xs
  | [] => rfl
  | x :: xs => by
    have : valOf fns l' x = valOf fns l x := valOf_congr (by rw [h])
    simp only [valsOf, this, valsOf_congr h xs]

theorem valsOf_take {fns l} : ∀ {xs : List Var} {cs} (n : Nat), valsOf fns l xs = some cs →
    valsOf fns l (xs.take n) = some (cs.take n) := by
  intro xs
  induction xs with
  | nil => intro cs n h; simp only [valsOf, Option.some.injEq] at h; subst h; simp [valsOf]
  | cons x xs ih =>
    intro cs n h
    simp only [valsOf] at h
    split at h
    · rename_i c cs' h1 h2
      simp only [Option.some.injEq] at h
      subst h
      cases n with
      | zero => simp [valsOf]
      | succ n => simp only [List.take_succ_cons, valsOf, h1, ih n h2]
    · cases h

/-- Evaluating the pieces of a call. -/
theorem exec_call {X need ρ l h} (hI : Inv G S.cenv B loc me X need ρ l h) {f : Var} {ft : Tag} {ys : List Var} {x : Var}
    (hf : f ∈ X) (hys : ∀ y ∈ ys, y ∈ X) (har : ∀ t, ar t ≤ maxArgs) (hlen : ys.length = ar ft) {asgn c : CStmt} {np a : Nat}
    (hasgn : asgnAppVars np B.names ys (List.range (ar ft)) = some asgn)
    (hcl : mkCall np B.names x (makeVar B.names f) a ys = some c) {scall : Env → Exp → Res}
    (hcall : CallOk G S.cenv B ar np scall ccall) {ρ' eb} (hce : callee ρ f ft ys = some (ρ', eb)) :
    ∃ args' g cs, exec W ccall me asgn l h = .norm { l with argsSet := true } { h with args := args' } ∧
      ∀ h1 : Th, h1.args = args' → h1.mem = h.mem → h1.alloc = l.alloc → h1.limit = l.limit → Below (me + 1) h1 → h1.Ok G S.cenv B →
        exec W ccall me c { l with argsSet := true } h1 = afterCall { l with argsSet := true } x (ccall (me + 1) g cs h1) ∧
        Sim G S.cenv B (me + 1) h1 (scall ρ' eb) (ccall (me + 1) g cs h1) := by
  obtain ⟨vs, full, hv, hcs, hl, hrep⟩ := hI.vals hys
  obtain ⟨ρ1, B1, f', vs', xs, e1, e2, e3, e4⟩ := callee_some hce
  rw [hv] at e2
  cases e2
  obtain ⟨vf, cf, g1, g2, g3, _⟩ := hI.vars f hf
  rw [e1] at g1
  cases g1
  cases g3
  rename_i hfn
  simp only [asgnAppVars, drop_range, Option.map_eq_some_iff] at hasgn
  obtain ⟨st, hst, rfl⟩ := hasgn
  rw [← hlen, ← List.length_drop] at hst
  have hset : ∀ y, valOf B.names { l with argsSet := true } y = valOf B.names l y := fun y => rfl
  obtain ⟨hcl1, hcl2⟩ := valsOf_some hcs
  have hmx : np + (ys.drop np).length ≤ maxArgs ∨ ys.drop np = [] := by
    by_cases hnp : np < ys.length
    · left; rw [List.length_drop]; have := har ft; omega
    · right; exact List.drop_eq_nil_of_le (by omega)
  obtain ⟨args', ea, hargs⟩ := exec_asgnAppVars' (W := W) (call := ccall) (me := me) hst hmx
    (l := { l with argsSet := true }) (h := h) rfl (by
      intro y hy
      obtain ⟨v, c, _, hc, _⟩ := hI.vars y (hys y (List.mem_of_mem_drop hy))
      exact ⟨c, hc⟩)
  refine ⟨args', f', full.take np, ?_, ?_⟩
  · rw [exec_seq (l' := { l with argsSet := true }) (h' := h) (by simp only [exec])]
    exact ea
  · intro h1 ha hm hal hli hb hok1
    simp only [mkCall, Option.map_eq_some_iff] at hcl
    obtain ⟨es, hes, rfl⟩ := hcl
    obtain ⟨_, hev⟩ := mkCallVars_spec (me := me) hes
    constructor
    · have h2 := hev (l := { l with argsSet := true }) (h := h1) (valsOf_take np ((valsOf_congr (l := l) (l' := { l with argsSet := true }) rfl ys).trans hcs))
      simp only [exec]
      rw [h2, evalC_makeVar, hset, g2]
    · refine hcall f' ft xs eb vs full h1 (me + 1) ρ' e3 (by omega) e4 hl ?_ ?_ hb ?_ hok1
      · intro i v c hvi hci
        have := hrep i v c hvi hci
        unfold Th.Rep
        rw [hm, hal, hli]
        exact this
      · intro i c hnp hci
        rw [ha]
        have hlt := (List.getElem?_eq_some_iff.mp hci).1
        have hyi := List.getElem?_eq_getElem (l := ys) (i := i) (by omega)
        have h3 := hargs (i - np) ys[i] (by rw [List.getElem?_drop, show np + (i - np) = i by omega]; exact hyi)
        rw [show np + (i - np) = i by omega] at h3
        rw [h3, hset, hcl2 i _ hyi]
        exact hci
      · rw [hal, hli]; have := hI.room; omega

theorem Sim.final {d h r o cenv} (hs : Sim G cenv B d h r o) (hr : r ≠ .stuck) : Final o := by
  cases r with
  | val v => rcases hs with rfl | ⟨_, _, rfl, _⟩ <;> trivial
  | oot => rcases hs with rfl | rfl <;> trivial
  | stuck => exact absurd rfl hr

/-- The invariant after a call and the restoration of the live variables. -/
theorem Inv.after {cenv X need ρ l h} (hI : Inv G cenv B loc me X need ρ l h) {x : Var} {e' : Exp} {l0 l' : Loc} {h0 h' : Th} {v}
    (hsync : h0.sync l0 = ({ h with args := h0.args } : Th).sync l) (ht : l0.temps = l.temps)
    (hk : Keeps G cenv B me (h0.sync l0) h') (hp : (h'.frames me).prev = h'.fp)
    (hroom : h'.alloc + maxAllocsE e' ≤ h'.limit) (ha : l'.alloc = h'.alloc) (hl : l'.limit = h'.limit)
    (hx : x ∈ e'.fv ∩ loc → ∃ c', l'.temps x = some c' ∧ h'.Rep G cenv B v c')
    (hys : ∀ y ∈ (e'.fv ∩ loc).erase x, ∀ cy w, l0.temps y = some cy → (h0.sync l0).Rep G cenv B w cy →
      ∃ c', l'.temps y = some c' ∧ h'.Rep G cenv B w c')
    (hX : ∀ y ∈ e'.fv, y = x ∨ y ∈ X) (hxf : x ∉ B.names) (hxl : x ∈ loc) (hok : h'.Ok G cenv B) :
    Inv G cenv B loc me e'.fv (maxAllocsE e') (ρ.set x v) l' h' := by
  have hrep : ∀ w c, VRep G cenv B h'.mem l'.alloc l'.limit w c ↔ h'.Rep G cenv B w c := by
    intro w c; rw [ha, hl]; rfl
  have hb0 : Below me (h0.sync l0) := by
    rw [hsync]
    exact hI.below.same rfl rfl
  refine ⟨?_, hl, by rw [ha], by rw [ha, hl]; exact hroom, hp, hk.below hb0, by unfold Th.sync; rw [ha, hl]; exact hok⟩
  intro y hy
  by_cases hyx : y = x
  · subst hyx
    obtain ⟨c', h1, h2⟩ := hx (Finset.mem_inter.2 ⟨hy, hxl⟩)
    exact ⟨v, c', set_self, by rw [valOf, if_neg hxf]; exact h1, (hrep _ _).2 h2, .inr hxl⟩
  · obtain ⟨w, c, e1, e2, e3, e4⟩ := hI.vars y ((hX y hy).resolve_left hyx)
    by_cases hyf : y ∈ B.names
    · rw [valOf, if_pos hyf] at e2
      simp only [Option.some.injEq] at e2
      subst e2
      cases e3
      exact ⟨_, _, by rw [set_other hyx]; exact e1, by rw [valOf, if_pos hyf], .fn hyf, .inl hyf⟩
    · have hyl := e4.resolve_left hyf
      rw [valOf, if_neg hyf] at e2
      obtain ⟨c', h1, h2⟩ := hys y (by simp [hyx, hy, hyl]) c w (by rw [ht]; exact e2) (by rw [hsync]; exact e3)
      exact ⟨w, c', by rw [set_other hyx]; exact e1, by rw [valOf, if_neg hyf]; exact h1, (hrep _ _).2 h2, .inr hyl⟩

/-- The body of a function. -/
theorem trE_sim (hS : C.cenv = S.cenv) (hc : CtorsOk S.cenv) (hW : GcOk G S.cenv B W) (hP : PrimsOk G S C.prims B W)
    (hG : G.Laws S.cenv B)
    (har : ∀ t, ar t ≤ maxArgs) (hfe : FenvOk ar fenv) (hres : C.result ∉ B.names)
    (hlf : ∀ y ∈ loc, y ∉ B.names) {scall : Env → Exp → Res} (hcall : CallOk G S.cenv B ar C.nParam scall ccall) : ∀ (e : Exp) (sl : Nat) (s : CStmt) (n : Nat),
    trE C fenv B.names loc e sl = some (s, n) → OkE S.cenv ar e → (localsE e).Nodup →
    (∀ x ∈ localsE e, x ∉ e.fv ∧ x ∉ B.names ∧ x ∈ loc) → ∀ ρ l h, Inv G S.cenv B loc me e.fv (maxAllocsE e) ρ l h →
    n ≤ (h.frames me).size → Sim G S.cenv B me (h.sync l) (evalE S scall e ρ) (exec W ccall me s l h)
  | .constr x t ys e, sl, s, n, htr, hok, hnd, hlv, ρ, l, h, hI, hsz => by
    simp only [trE] at htr
    split at htr
    case h_2 => cases htr
    rename_i p s' n' hp htr'
    simp only [Option.some.injEq, Prod.mk.injEq] at htr
    obtain ⟨rfl, rfl⟩ := htr
    simp only [OkE] at hok
    obtain ⟨⟨i, hi, hia⟩, hok'⟩ := hok
    simp only [localsE, List.nodup_cons] at hnd
    obtain ⟨hxfv, hxfn, hxloc⟩ := hlv x (by simp [localsE])
    simp only [Exp.fv, Finset.mem_union, List.mem_toFinset, Finset.mem_erase, not_or] at hxfv
    have hsub : ∀ y ∈ localsE e, y ∉ e.fv ∧ y ∉ B.names ∧ y ∈ loc := by
      intro y hy
      have := hlv y (by simp [localsE, hy])
      refine ⟨fun hf => this.1 ?_, this.2⟩
      simp only [Exp.fv, Finset.mem_union, Finset.mem_erase]
      exact .inr ⟨fun he => hnd.1 (he ▸ hy), hf⟩
    obtain ⟨vs, cs, hv, hcs, hl, hrep⟩ := hI.vals (ys := ys) (fun y hy => by simp [Exp.fv, hy])
    obtain ⟨hcl1, hcl2⟩ := valsOf_some hcs
    have hvl := getList_length hv
    simp only [evalE, hv]
    unfold assignConstructor at hp
    rw [hS, ctorRep, hi] at hp
    simp only [] at hp
    by_cases ha : i.arity = 0
    · rw [if_pos ha] at hp
      simp only [Option.some.injEq] at hp
      subst hp
      have hys : ys = [] := List.eq_nil_of_length_eq_zero (by omega)
      subst hys
      simp only [getList, Option.some.injEq] at hv
      subst hv
      rw [exec_seq (l' := l.setT x (.int (2 * i.ordinal + 1))) (h' := h) (by simp only [exec, evalC, Rep.tag])]
      refine trE_sim hS hc hW hP hG har hfe hres hlf hcall e sl s' n' htr' hok' hnd.2 hsub _ _ _ ?_ hsz
      refine hI.bind (x := x) (c := .int (2 * i.ordinal + 1)) (by simp [Loc.setT]) (fun y hy => by simp [Loc.setT, hy])
        (.enum hi ha) (fun _ _ h => h) rfl rfl rfl (Nat.le_refl _) ?_ rfl rfl ?_ hxfn hxloc hI.ok.heap
      · have := hI.room; simp only [maxAllocsE] at this; exact this
      · intro y hy
        by_cases h : y = x
        · exact .inl h
        · exact .inr (by simp [Exp.fv, h, hy])
    · rw [if_neg ha] at hp
      simp only [Option.some.injEq] at hp
      subst hp
      obtain ⟨y0, ys', rfl⟩ : ∃ y0 ys', ys = y0 :: ys' := by
        cases ys with
        | nil => simp at hia; omega
        | cons a b => exact ⟨a, b, rfl⟩
      generalize hys : y0 :: ys' = ys at *
      have hroom : l.alloc + (maxAllocsE e + ys.length + 1) ≤ l.limit := by
        have := hI.room
        rw [← hys] at this ⊢
        simp only [maxAllocsE] at this
        exact this
      have hlim := hI.lim
      have hlow := hI.low
      have q1 : exec W ccall me (.set x (.alloc 1)) l h = .norm (l.setT x (.ptr (l.alloc + 1))) h := by
        simp only [exec, evalC]
      have q2 : exec W ccall me (.bump (i.arity + 1)) (l.setT x (.ptr (l.alloc + 1))) h =
          .norm { l.setT x (.ptr (l.alloc + 1)) with alloc := l.alloc + (i.arity + 1) } h := by
        simp only [exec]; rfl
      generalize hl1 : ({ l.setT x (.ptr (l.alloc + 1)) with alloc := l.alloc + (i.arity + 1) } : Loc) = l1 at q2
      have hx1 : l1.temps x = some (.ptr (l.alloc + 1)) := by rw [← hl1]; simp [Loc.setT]
      have ho1 : ∀ y, y ≠ x → l1.temps y = l.temps y := by intro y hy; rw [← hl1]; simp [Loc.setT, hy]
      have hal1 : l1.alloc = l.alloc + (i.arity + 1) := by rw [← hl1]
      have hli1 : l1.limit = l.limit := by rw [← hl1]; rfl
      have q3 : exec W ccall me (.setField x (-1) (.cst (.int (Rep.boxed i.ordinal i.arity).tag))) l1 h =
          .norm l1 { h with mem := setMem h.mem l.alloc (.int (i.arity * 1024 + i.ordinal)) } := by
        simp only [exec, evalC, hx1, Rep.tag]
        rw [show (((l.alloc + 1 : Nat) : Int) + -1).toNat = l.alloc by omega, if_pos (by omega)]
      have hval1 : ∀ y ∈ ys, valOf B.names l1 y = valOf B.names l y := by
        intro y hy
        exact valOf_congr (ho1 y (fun he => hxfv.1 (he ▸ hy)))
      obtain ⟨mem', q4, hin, hout⟩ := exec_assignFields (W := W) (call := ccall) (me := me) (fns := B.names) hx1 ys 0
        { h with mem := setMem h.mem l.alloc (.int (i.arity * 1024 + i.ordinal)) }
        (fun y hy => by
          rw [hval1 y hy]
          obtain ⟨v, c, _, hc, _⟩ := hI.vars y (by simp [Exp.fv, hy])
          exact ⟨c, hc⟩) (by show h.alloc ≤ _; omega) (by show _ ≤ h.limit; omega)
      rw [exec_seq (l' := l1) (h' := { h with mem := mem' }) (by
        rw [exec_seq q1, exec_seq q2, exec_seq q3, q4])]
      have hmemout : ∀ a, a < l.alloc ∨ l.limit ≤ a → mem' a = h.mem a := by
        intro a ha'
        rw [hout a (by omega)]
        simp only [setMem]
        rw [if_neg (by omega)]
      have hhd : mem' l.alloc = some (.int (i.arity * 1024 + i.ordinal)) := by rw [hout _ (by omega)]; simp [setMem]
      have hfld : ∀ (k : Nat) c, cs[k]? = some c → mem' (l.alloc + 1 + k) = some c := by
        intro k c hk
        have hlt := (List.getElem?_eq_some_iff.mp hk).1
        have hyk := List.getElem?_eq_getElem (l := ys) (i := k) (by omega)
        have := hin k _ hyk
        rw [Nat.add_zero] at this
        rw [this, hval1 _ (List.mem_of_getElem? hyk), hcl2 k _ hyk, hk]
      have hcsl : cs.length = i.arity := by omega
      obtain ⟨hgood, hobj, hobjm⟩ := hG h.mem mem' l.alloc l.limit cs i.ordinal hI.ok.heap
        (fun he => by rw [he] at hcsl; simp at hcsl; omega) (hc.small t i hi ha) (by omega)
        (fun c hcm => by
          obtain ⟨k, hk⟩ := List.mem_iff_getElem?.mp hcm
          have hlt := (List.getElem?_eq_some_iff.mp hk).1
          exact ⟨_, hrep k _ c (List.getElem?_eq_getElem (by omega)) hk⟩)
        (by rw [hcsl]; exact hhd) hfld
        (fun a ha' => by rw [hout a (by omega)]; simp only [setMem]; rw [if_neg (by omega)])
      rw [hcsl, ← hal1, ← hli1] at hgood hobj hobjm
      have hmono : ∀ w d, VRep G S.cenv B h.mem l.alloc l.limit w d → VRep G S.cenv B mem' l1.alloc l1.limit w d := by
        intro w d hwd
        rw [hal1, hli1]
        exact hwd.mono (by omega) (Nat.le_refl _) hmemout (by rw [← hal1, ← hli1]; exact hobjm)
      have hnew : VRep G S.cenv B mem' l1.alloc l1.limit (.constr t vs) (.ptr (l.alloc + 1)) := by
        refine .boxed (cs := cs) hi (by omega) (by omega) ⟨by omega, by rw [hal1]; left; omega⟩ ?_ hl hfld ?_ hobj
        · rw [show l.alloc + 1 - 1 = l.alloc by omega]; exact hhd
        · intro k v c hv' hc'
          exact hmono v c (hrep k v c hv' hc')
      refine Sim.pre (below_sync hI.below) (h1 := ({ h with mem := mem' } : Th).sync l1) ?_ ?_
      · exact Keeps.of_frames rfl (fun _ _ => rfl) (fun v c hvc => hmono v c hvc)
      · refine trE_sim hS hc hW hP hG har hfe hres hlf hcall e sl s' n' htr' hok' hnd.2 hsub _ _ _ ?_ hsz
        refine hI.bind (x := x) hx1 ho1 hnew hmono rfl rfl hli1 (by omega) (by omega) rfl rfl ?_ hxfn hxloc hgood
        intro y hy
        by_cases h : y = x
        · exact .inl h
        · exact .inr (by simp [Exp.fv, h, hy])
  | .case y bs, sl, s, n, htr, hok, hnd, hlv, ρ, l, h, hI, hsz => by
    simp only [trE] at htr
    split at htr
    case h_2 => cases htr
    rename_i ls ls' n' htr'
    simp only [Option.some.injEq, Prod.mk.injEq] at htr
    obtain ⟨rfl, rfl⟩ := htr
    simp only [OkE] at hok
    simp only [localsE] at hnd hlv
    obtain ⟨v, c, e1, e2, hr, _⟩ := hI.vars y (by simp [Exp.fv])
    simp only [evalE, e1]
    cases v with
    | fn _ _ _ => trivial
    | prim _ => trivial
    | constr t vs =>
      simp only []
      by_cases hcons : consistent S.cenv t bs.tags = true
      case neg => rw [if_neg hcons]; trivial
      rw [if_pos hcons, evalB_findTag]
      cases hft : findTag t bs with
      | none => trivial
      | some e =>
        simp only []
        have hyf : y ∉ B.names := by
          intro hy
          rw [valOf, if_pos hy] at e2
          simp only [Option.some.injEq] at e2
          subst e2
          cases hr
        rw [valOf, if_neg hyf] at e2
        obtain ⟨i, _, hi, _, _⟩ := consistent_all hcons t (findTag_mem hft)
        obtain ⟨s', m, hs', hm, hbox, hen⟩ := trBs_switch (W := W) (call := ccall) (me := me) (by rw [hS]; exact hc)
          (t := t) (i := i) (by rw [hS]; exact hi) htr' (fun t' ht' => by
            obtain ⟨i1, i', h1, h2, h3⟩ := consistent_all hcons t' ht'
            rw [hi] at h1; cases h1
            exact ⟨i', by rw [hS]; exact h2, h3⟩) hft
        have hlt : sizeOf e < sizeOf (Exp.case y bs) := by
          have := findTag_sizeOf hft
          simp only [Exp.case.sizeOf_spec]; omega
        have hIe : Inv G S.cenv B loc me e.fv (maxAllocsE e) ρ l h := by
          refine ⟨fun z hz => hI.vars z ?_, hI.lim, hI.low, ?_, hI.prev, hI.below, hI.ok⟩
          · simp only [Exp.fv, Finset.mem_insert]; exact .inr (findTag_fv hft z hz)
          · have h1 := hI.room
            have h2 := findTag_allocs hft
            simp only [maxAllocsE] at h1; omega
        have ih := trE_sim hS hc hW hP hG har hfe hres hlf hcall e sl s' m hs' (findTag_ok hft hok)
          (hnd.sublist (findTag_locals hft)) (fun x hx => by
            have := hlv x ((findTag_locals hft).subset hx)
            refine ⟨fun hf => this.1 ?_, this.2⟩
            simp only [Exp.fv, Finset.mem_insert]; exact .inr (findTag_fv hft x hf)) ρ l h hIe (by omega)
        by_cases hst : evalE S scall e ρ = .stuck
        · rw [hst]; trivial
        have hfin := Sim.final ih hst
        cases hr with
        | enum g1 g2 =>
          rename_i i1
          rw [hi] at g1; cases g1
          have : exec W ccall me (caseSwitch y ls ls') l h = exec W ccall me s' l h := by
            rw [← (hen g2).2 l h hfin]
            simp only [caseSwitch, exec, e2]
            rw [if_neg (by omega)]
            rfl
          rw [this]
          exact ih
        | boxed g1 g2 g3 g4 g5 g6 g7 g8 g9 =>
          rename_i i1 p cs
          rw [hi] at g1; cases g1
          have hr1 : readAt h.mem p (-1) = some (.int (i.arity * 1024 + i.ordinal)) := by
            have := g4.1
            rw [readAt, if_pos (by omega), show ((p : Int) + -1).toNat = p - 1 by omega]
            exact g5
          have : exec W ccall me (caseSwitch y ls ls') l h = exec W ccall me s' l h := by
            rw [← (hbox (by omega)).2 l h hfin]
            simp only [caseSwitch, exec, evalC, e2, hr1]
            rfl
          rw [this]
          exact ih
  | .proj x t k y e, sl, s, n, htr, hok, hnd, hlv, ρ, l, h, hI, hsz => by
    simp only [trE] at htr
    split at htr
    case h_2 => cases htr
    rename_i s' n' htr'
    simp only [Option.some.injEq, Prod.mk.injEq] at htr
    obtain ⟨rfl, rfl⟩ := htr
    simp only [OkE] at hok
    simp only [localsE, List.nodup_cons] at hnd
    obtain ⟨_, hxfn, hxloc⟩ := hlv x (by simp [localsE])
    have hsub : ∀ z ∈ localsE e, z ∉ e.fv ∧ z ∉ B.names ∧ z ∈ loc := by
      intro z hz
      have := hlv z (by simp [localsE, hz])
      refine ⟨fun hf => this.1 ?_, this.2⟩
      simp only [Exp.fv, Finset.mem_insert, Finset.mem_erase]
      exact .inr ⟨fun he => hnd.1 (he ▸ hz), hf⟩
    obtain ⟨v, c, e1, e2, hr, _⟩ := hI.vars y (by simp [Exp.fv])
    simp only [evalE, e1]
    cases v with
    | fn _ _ _ => trivial
    | prim _ => trivial
    | constr t' vs =>
      simp only []
      by_cases ht : t' = t
      case neg => rw [if_neg ht]; trivial
      rw [if_pos ht]
      cases hk : vs[k]? with
      | none => trivial
      | some w =>
        simp only []
        cases hr with
        | enum g1 g2 => simp at hk
        | boxed g1 g2 g3 g4 g5 g6 g7 g8 g9 =>
          rename_i i p cs
          have hlt := (List.getElem?_eq_some_iff.mp hk).1
          have hck := List.getElem?_eq_getElem (l := cs) (i := k) (by omega)
          have hyf : y ∉ B.names := by
            intro hy
            rw [valOf, if_pos hy] at e2
            simp at e2
          rw [valOf, if_neg hyf] at e2
          have q : exec W ccall me (.set x (.field y k)) l h = .norm (l.setT x cs[k]) h := by
            simp only [exec, evalC, e2]
            rw [readAt, if_pos (by omega), show ((p : Int) + (k : Int)).toNat = p + k by omega, g7 k _ hck]
          rw [exec_seq q]
          refine trE_sim hS hc hW hP hG har hfe hres hlf hcall e sl s' n' htr' hok hnd.2 hsub _ _ _ ?_ hsz
          refine hI.bind (x := x) (c := cs[k]) (by simp [Loc.setT]) (fun z hz => by simp [Loc.setT, hz])
            (g8 k w _ hk hck) (fun _ _ h => h) rfl rfl rfl (Nat.le_refl _) ?_ rfl rfl ?_ hxfn hxloc hI.ok.heap
          · have := hI.room; simp only [maxAllocsE] at this; exact this
          · intro z hz
            by_cases h : z = x
            · exact .inl h
            · exact .inr (by simp [Exp.fv, h, hz])
  | .letapp x f ft ys e, sl, s, n, htr, hok, hnd, hlv, ρ, l, h, hI, hsz => by
    simp only [trE] at htr
    split at htr
    case h_2 => cases htr
    rename_i a ind hfen
    obtain ⟨rfl, rfl⟩ := hfe ft a ind hfen
    split at htr
    case h_2 => cases htr
    rename_i asgn c hasgn hmk
    split at htr
    case h_2 => cases htr
    rename_i s' n' htr'
    simp only [Option.some.injEq, Prod.mk.injEq] at htr
    obtain ⟨rfl, rfl⟩ := htr
    simp only [OkE] at hok
    simp only [localsE, List.nodup_cons] at hnd
    obtain ⟨_, hxfn, hxloc⟩ := hlv x (by simp [localsE])
    have hsub : ∀ z ∈ localsE e, z ∉ e.fv ∧ z ∉ B.names ∧ z ∈ loc := by
      intro z hz
      have := hlv z (by simp [localsE, hz])
      refine ⟨fun hf => this.1 ?_, this.2⟩
      simp only [Exp.fv, Finset.mem_insert, Finset.mem_union, Finset.mem_erase]
      exact .inr (.inr ⟨fun he => hnd.1 (he ▸ hz), hf⟩)
    simp only [evalE]
    cases hce : callee ρ f ft ys with
    | none => trivial
    | some p =>
      obtain ⟨ρ', eb⟩ := p
      simp only []
      obtain ⟨args', g, cs, ea, hrest⟩ := exec_call (W := W) hI (x := x) (f := f) (ys := ys) (by simp [Exp.fv])
        (fun y hy => by simp [Exp.fv, hy]) har hok.1 hasgn hmk hcall hce
      have hXe : ∀ y ∈ e.fv, y = x ∨ y ∈ (Exp.letapp x f ft ys e).fv := by
        intro y hy
        by_cases h : y = x
        · exact .inl h
        · exact .inr (by simp [Exp.fv, h, hy])
      have hmono := trE_mono e _ s' n' htr'
      rcases exec_around (cenv := S.cenv) (B := B) (W := W) (call := ccall) (me := me) hc hW loc x e asgn c l
          { l with argsSet := true } h { h with args := args' } ea
          (hI.below.same rfl rfl) hI.prev
          (by
            intro y hy
            simp only [Finset.mem_erase, Finset.mem_inter] at hy
            obtain ⟨v, c, _, h2, h3, _⟩ := hI.vars y ((hXe y hy.2.1).resolve_left hy.1)
            by_cases hyf : y ∈ B.names
            · exact absurd hyf (hlf y hy.2.2)
            · rw [valOf, if_neg hyf] at h2
              exact ⟨c, v, h2, h3⟩)
          (by show _ ≤ (h.frames me).size; have := Nat.le_max_right sl (aroundCall loc x e asgn c).2; omega)
          (hI.ok.same (me := me) (below_sync hI.below) rfl rfl rfl rfl (fun _ _ => rfl))
          (scall ρ' eb) (fun h1 => ccall (me + 1) g cs h1)
          (fun h1 hp hb hok1 => hrest h1 hp.args hp.mem hp.alloc hp.limit hb hok1) with h1 | h1 | ⟨h1, h2⟩ | h1
      · rw [h1]; trivial
      · rw [exec_seq_stop h1 (by intro _ _ h; cases h)]
        cases scall ρ' eb with
        | val v =>
          simp only []
          cases evalE S scall e (ρ.set x v) with
          | val v => exact .inl rfl
          | oot => exact .inl rfl
          | stuck => trivial
        | oot => exact .inl rfl
        | stuck => trivial
      · rw [h1, exec_seq_stop h2 (by intro _ _ h; cases h)]
        exact .inr rfl
      · obtain ⟨v, l', h', hv, he, hk, hp, hz, hroom, hla, hll, hxv, hyv, hok'⟩ := h1
        rw [hv, exec_seq he]
        simp only []
        have hI' := hI.after (x := x) (e' := e) (l0 := { l with argsSet := true }) (h0 := { h with args := args' }) (v := v)
          rfl rfl hk hp hroom hla hll hxv hyv hXe hxfn hxloc hok'
        have hb0 : Below me (h.sync l) := below_sync hI.below
        have hks : Keeps G S.cenv B me (h.sync l) h' := by
          refine Keeps.trans hb0 (h' := ({ h with args := args' } : Th).sync { l with argsSet := true }) ?_ hk
          exact Keeps.of_frames rfl (fun _ _ => rfl) (fun _ _ h => h)
        have hsy : h'.sync l' = h' := by unfold Th.sync; rw [hla, hll]
        refine Sim.pre hb0 hks ?_
        have := trE_sim hS hc hW hP hG har hfe hres hlf hcall e _ s' n' htr' hok.2 hnd.2 hsub _ l' h' hI' (by rw [hz]; exact hsz)
        rw [hsy] at this
        exact this
  | .fn _ _, sl, s, n, htr, hok, hnd, hlv, ρ, l, h, hI, hsz => by simp [trE] at htr
  | .app f ft ys, sl, s, n, htr, hok, hnd, hlv, ρ, l, h, hI, hsz => by
    simp only [trE] at htr
    split at htr
    case h_2 => cases htr
    rename_i a ind hfen
    obtain ⟨rfl, rfl⟩ := hfe ft a ind hfen
    split at htr
    case h_2 => cases htr
    rename_i asgn c hasgn hmk
    simp only [Option.some.injEq, Prod.mk.injEq] at htr
    obtain ⟨rfl, rfl⟩ := htr
    simp only [OkE] at hok
    simp only [evalE]
    cases hce : callee ρ f ft ys with
    | none => trivial
    | some p =>
      obtain ⟨ρ', eb⟩ := p
      simp only []
      obtain ⟨args', g, cs, ea, hrest⟩ := exec_call (W := W) hI (x := C.result) (f := f) (ys := ys) (by simp [Exp.fv])
        (fun y hy => by simp [Exp.fv, hy]) har hok hasgn hmk hcall hce
      rw [exec_seq ea]
      rw [exec_seq (l' := { l with argsSet := true }) (h' := { h with args := args', alloc := l.alloc }) (by simp only [exec])]
      rw [exec_seq (l' := { l with argsSet := true }) (h' := { h with args := args', alloc := l.alloc, limit := l.limit })
        (by simp only [exec])]
      generalize hH : ({ h with args := args', alloc := l.alloc, limit := l.limit } : Th) = H
      have hbH : Below me H := by
        rw [← hH]; exact hI.below.same rfl rfl
      obtain ⟨ec, hs⟩ := hrest H (by rw [← hH]) (by rw [← hH]) (by rw [← hH]) (by rw [← hH]) (hbH.mono (by omega))
        (by rw [← hH]; exact hI.ok.same (me := me) (below_sync hI.below) rfl rfl rfl rfl (fun _ _ => rfl))
      refine Sim.pre (below_sync hI.below) (h1 := H) (by rw [← hH]; exact Keeps.of_frames rfl (fun _ _ => rfl) (fun _ _ h => h)) ?_
      generalize ccall (me + 1) g cs H = o at ec hs
      cases hr : scall ρ' eb with
      | stuck => trivial
      | oot =>
        rw [hr] at hs
        rcases hs with rfl | rfl
        · exact .inl (exec_seq_stop ec (by intro _ _ h; cases h))
        · exact .inr (exec_seq_stop ec (by intro _ _ h; cases h))
      | val v =>
        rw [hr] at hs
        rcases hs with rfl | ⟨c', h', rfl, hv, hk, hle, hok'⟩
        · exact .inl (exec_seq_stop ec (by intro _ _ h; cases h))
        · refine .inr ⟨c', h', ?_, hv, hk.lower (by omega), hle, hok'⟩
          rw [exec_seq ec]
          simp only [exec, evalC_makeVar]
          rw [valOf_setT hres]
  | .primVal x p e, sl, s, n, htr, hok, hnd, hlv, ρ, l, h, hI, hsz => by
    simp only [trE] at htr
    split at htr
    case h_2 => cases htr
    rename_i s' n' htr'
    simp only [Option.some.injEq, Prod.mk.injEq] at htr
    obtain ⟨rfl, rfl⟩ := htr
    simp only [OkE] at hok
    obtain ⟨⟨k, rfl⟩, hok⟩ := hok
    simp only [localsE, List.nodup_cons] at hnd
    obtain ⟨_, hxfn, hxloc⟩ := hlv x (by simp [localsE])
    have hsub : ∀ z ∈ localsE e, z ∉ e.fv ∧ z ∉ B.names ∧ z ∈ loc := by
      intro z hz
      have := hlv z (by simp [localsE, hz])
      refine ⟨fun hf => this.1 ?_, this.2⟩
      simp only [Exp.fv, Finset.mem_erase]
      exact ⟨fun he => hnd.1 (he ▸ hz), hf⟩
    simp only [evalE]
    rw [exec_seq (l' := l.setT x (.int (k * 2 + 1))) (h' := h) (by simp only [compilePrim, exec, evalC])]
    refine trE_sim hS hc hW hP hG har hfe hres hlf hcall e sl s' n' htr' hok hnd.2 hsub _ _ _ ?_ hsz
    refine hI.bind (x := x) (c := .int (k * 2 + 1)) (by simp [Loc.setT]) (fun z hz => by simp [Loc.setT, hz])
      .int (fun _ _ h => h) rfl rfl rfl (Nat.le_refl _) ?_ rfl rfl ?_ hxfn hxloc hI.ok.heap
    · have := hI.room; simp only [maxAllocsE] at this; exact this
    · intro z hz
      by_cases h : z = x
      · exact .inl h
      · exact .inr (by simp [Exp.fv, h, hz])
  | .prim x p ys e, sl, s, n, htr, hok, hnd, hlv, ρ, l, h, hI, hsz => by
    simp only [OkE] at hok
    simp only [localsE, List.nodup_cons] at hnd
    obtain ⟨_, hxfn, hxloc⟩ := hlv x (by simp [localsE])
    have hsub : ∀ z ∈ localsE e, z ∉ e.fv ∧ z ∉ B.names ∧ z ∈ loc := by
      intro z hz
      have := hlv z (by simp [localsE, hz])
      refine ⟨fun hf => this.1 ?_, this.2⟩
      simp only [Exp.fv, Finset.mem_union, Finset.mem_erase]
      exact .inr ⟨fun he => hnd.1 (he ▸ hz), hf⟩
    have hXe : ∀ y ∈ e.fv, y = x ∨ y ∈ (Exp.prim x p ys e).fv := by
      intro y hy
      by_cases h : y = x
      · exact .inl h
      · exact .inr (by simp [Exp.fv, h, hy])
    obtain ⟨vs, cs, hv, hcs, hl, hrep⟩ := hI.vals (ys := ys) (fun y hy => by simp [Exp.fv, hy])
    simp only [evalE, hv]
    cases hop : S.op p vs with
    | none => trivial
    | some v =>
      simp only []
      simp only [trE] at htr
      split at htr
      · rename_i as hpr has
        split at htr
        case h_2 => cases htr
        rename_i s' n' htr'
        simp only [Option.some.injEq, Prod.mk.injEq] at htr
        obtain ⟨rfl, rfl⟩ := htr
        obtain ⟨_, hev⟩ := mkCallVars_spec (me := me) has
        obtain ⟨c, hc1, hc2⟩ := hP.pure p vs v cs h.mem l.alloc l.limit hpr hop hl hrep
        rw [exec_seq (l' := l.setT x c) (h' := h) (by simp only [exec, hev hcs, hc1])]
        refine trE_sim hS hc hW hP hG har hfe hres hlf hcall e sl s' n' htr' hok hnd.2 hsub _ _ _ ?_ hsz
        refine hI.bind (x := x) (c := c) (by simp [Loc.setT]) (fun z hz => by simp [Loc.setT, hz])
          hc2 (fun _ _ h => h) rfl rfl rfl (Nat.le_refl _) ?_ rfl rfl hXe hxfn hxloc hI.ok.heap
        have := hI.room; simp only [maxAllocsE] at this; exact this
      · rename_i as hpr has
        split at htr
        case h_2 => cases htr
        rename_i s' n' htr'
        simp only [Option.some.injEq, Prod.mk.injEq] at htr
        obtain ⟨rfl, rfl⟩ := htr
        obtain ⟨_, hev⟩ := mkCallVars_spec (me := me) has
        have hmono := trE_mono e _ s' n' htr'
        rcases exec_around (cenv := S.cenv) (B := B) (W := W) (call := ccall) (me := me) hc hW loc x e .skip (.primT x p as) l
            l h h exec_skip hI.below hI.prev
            (by
              intro y hy
              simp only [Finset.mem_erase, Finset.mem_inter] at hy
              obtain ⟨v, c, _, h2, h3, _⟩ := hI.vars y ((hXe y hy.2.1).resolve_left hy.1)
              by_cases hyf : y ∈ B.names
              · exact absurd hyf (hlf y hy.2.2)
              · rw [valOf, if_neg hyf] at h2
                exact ⟨c, v, h2, h3⟩)
            (by have := Nat.le_max_right sl (aroundCall loc x e .skip (.primT x p as)).2; omega) hI.ok
            (.val v) (fun h1 => W.primT p cs h1)
            (fun h1 hp hb hok1 => by
              refine ⟨by simp only [exec, hev hcs], ?_⟩
              exact hP.heap p vs v cs h1 (me + 1) hpr hop hl (by
                rw [hp.alloc, hp.limit]; show l.alloc ≤ l.limit; have := hI.room; omega) hb hok1
                (fun i w c hw hc' => hp.rep.2 (hrep i w c hw hc'))) with h1 | h1 | ⟨h1, h2⟩ | h1
        · cases h1
        · rw [exec_seq_stop h1 (by intro _ _ h; cases h)]
          cases evalE S scall e (ρ.set x v) with
          | val v => exact .inl rfl
          | oot => exact .inl rfl
          | stuck => trivial
        · cases h1
        · obtain ⟨w, l', h', hw, he, hk, hp, hz, hroom, hla, hll, hxv, hyv, hok'⟩ := h1
          cases hw
          rw [exec_seq he]
          have hI' := hI.after (x := x) (e' := e) (l0 := l) (h0 := h) (v := v)
            rfl rfl hk hp hroom hla hll hxv hyv hXe hxfn hxloc hok'
          have hsy : h'.sync l' = h' := by unfold Th.sync; rw [hla, hll]
          refine Sim.pre (below_sync hI.below) hk ?_
          have := trE_sim hS hc hW hP hG har hfe hres hlf hcall e _ s' n' htr' hok hnd.2 hsub _ l' h' hI' (by rw [hz]; exact hsz)
          rw [hsy] at this
          exact this
      · cases htr
  | .halt x, sl, s, n, htr, hok, hnd, hlv, ρ, l, h, hI, hsz => by
    simp only [trE, Option.some.injEq, Prod.mk.injEq] at htr
    obtain ⟨rfl, rfl⟩ := htr
    obtain ⟨v, c, e1, e2, hr, _⟩ := hI.vars x (by simp [Exp.fv])
    simp only [evalE, e1]
    refine .inr ⟨c, h.sync l, ?_, hr, .refl, ?_, hI.ok⟩
    · simp only [exec, evalC_makeVar, e2]; rfl
    · show l.alloc ≤ l.limit; have := hI.room; omega
termination_by e => sizeOf e

end CGen
