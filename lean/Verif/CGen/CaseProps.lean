import Verif.CGen.CaseModel
import Verif.CGen.HostProps
import Verif.Runtime.GmpProps

/-!
# C79: case distinction on large natural numbers

For all compiled programs, all closures and all states in which compiled code calls the runtime.
-/

namespace CGen

open ANF
open Gmp (GInt Reads)

variable {G : HeapI} {S : Sig} {C : Cfg} {W : World} {B : Defs} {e : Exp} {body : Var} {M : CFun × List CFun}

/-! ## Specification -/

/-- `nat_case`: the first function applied to `tt`, or the second one to the predecessor. -/
def caseSpec (S : Sig) (unit : Val) (fuel n : Nat) (zero succ : Val) : Res :=
  match n with
  | 0 => applyClo S fuel zero unit
  | k + 1 => applyClo S fuel succ (.prim (.int k))

/-! ## Calls of closures -/

theorem call_args (call : Nat → Var → List CVal → Th → Out) (d : Nat) (f : CExpr) (es : List CExpr) (l : Loc) (h : Th)
    (hf : ∀ b, evalC d { l with argsSet := b } h f = evalC d l h f) (he : ∀ b, evalCs d { l with argsSet := b } h es = evalCs d l h es) :
    exec W call d (.seq (.call callTmp f es) (.ret (.temp callTmp))) { l with argsSet := true } h = exec W call d (.seq (.call callTmp f es) (.ret (.temp callTmp))) l h := by
  simp only [exec, hf, he]
  split
  · rename_i l' h' h1
    split at h1
    · rename_i g cs _ _
      cases hc : call (d + 1) g cs h <;> rw [hc] at h1 <;> simp only [afterCall, reduceCtorEq, Out.norm.injEq] at h1
      obtain ⟨rfl, rfl⟩ := h1
      simp [afterCall, evalC, Loc.setT]
    · cases h1
  · rename_i o h1
    split at h1
    · rename_i g cs _ _
      cases hc : call (d + 1) g cs h with
      | ret c h' => exact (h1 (({ l with argsSet := true } : Loc).setT callTmp c) h' (by rw [hc]; rfl)).elim
      | _ => simp [afterCall]
    · rfl

theorem closureFun_enter (call : Nat → Var → List CVal → Th → Out) (k d : Nat) (c a : CVal) (h : Th) :
    enter W call closureFun d [c, a] h = enter W call (callFun (k + 2)) d [c, a] h := by
  have key : ∀ (l : Loc) (h : Th), exec W call d closureFun.body l h = exec W call d (callFun (k + 2)).body l h := by
    intro l h
    simp only [closureFun, callFun, List.drop_succ_cons, List.take_succ_cons, List.drop_nil, List.take_nil, multiple, exec]
    cases evalC d l h (.field callClo 0) with
    | none => rfl
    | some x =>
      simp only []
      cases evalC d (l.setT callCode x) h (.field callClo 1) with
      | none => rfl
      | some y =>
        have := call_args (W := W) call d (.temp callCode) [.temp callEnv, .temp callArg] ((l.setT callCode x).setT callEnv y) h (fun _ => rfl) (fun _ => rfl)
        simp only [exec] at this
        exact this.symm
  unfold enter
  rw [if_pos (by simp [closureFun]), if_pos (by simp [callFun]), key]
  rfl

/-- **C79.** A closure called by the runtime, if functions have at least two C parameters: the result is that of the function. -/
theorem C79_call_partial (hL : Linked G S C W B e body M) (hn : 2 ≤ C.nParam) (n d : Nat) (h : Th) (hb : ∀ k, OnChain h k → k < d) (hle : h.alloc ≤ h.limit)
    (hok : h.Ok G S.cenv B) {clo arg : Val} {c a : CVal} (hc : h.Rep G S.cenv B clo c) (ha : h.Rep G S.cenv B arg a) :
    Sim G S.cenv B d h (applyClo S n clo arg) (enter W (callC W M.2 (n + 1)) closureFun d [c, a] h) := by
  obtain ⟨k, hk⟩ := Nat.exists_eq_add_of_le' hn
  rw [closureFun_enter _ k, ← hk]
  exact callFun_sim hL n d h hb hle hok hc ha

/-- **C79, refuted for few C parameters.** With `-args 0` or `-args 1` the runtime calls functions with arguments they do not have. -/
theorem C79_args_refuted (hL : Linked G S C W B e body M) (hn : C.nParam < 2) (n d : Nat) (h : Th) {t : Tag} {env : Val} {f : Var} {ft : Tag} {xs : List Var} {eb : Exp}
    (hf : findDef f B = some (ft, xs, eb)) {c a : CVal} (hc : h.Rep G S.cenv B (.constr t [.fn emp B f, env]) c) :
    enter W (callC W M.2 (n + 1)) closureFun d [c, a] h = .ub := by
  cases hc with
  | boxed g1 g2 g3 g4 g5 g6 g7 g8 g9 =>
  rename_i i p cs
  simp only [List.length_cons, List.length_nil] at g6
  obtain ⟨cf, ce, rfl⟩ := List.length_eq_two.1 g6
  have hf' := g8 0 _ cf rfl rfl
  have m0 := g7 0 cf rfl
  have m1 := g7 1 ce rfl
  cases hf' with
  | fn hfn =>
  have hM := hL.compiled
  simp only [compileC] at hM
  split at hM
  case isFalse => cases hM
  split at hM
  case h_2 => cases hM
  rename_i P s m hPs htr
  simp only [Option.some.injEq] at hM
  subst hM
  obtain ⟨F, h1, h2⟩ := findFun_trDefs hPs hf
  have hlen : F.params.length < 2 := by
    simp only [trDef] at h2
    split at h2
    · cases h2
    · split at h2
      · cases h2
        simp only [List.length_take]
        omega
      · cases h2
  have hcall : ∀ d x h', callC W P (n + 1) d f [x, a] h' = .ub := by
    intro d x h'
    rw [callC, h1]
    show enter _ _ _ _ _ _ = _
    rw [enter, if_neg (by simp; omega)]
  have r0 : readAt h.mem p 0 = some (.fn f) := by rw [readAt, if_pos (by omega), show ((p : Int) + 0).toNat = p + 0 by omega, m0]
  have r1 : readAt h.mem p 1 = some ce := by rw [readAt, if_pos (by omega), show ((p : Int) + 1).toNat = p + 1 by omega, m1]
  unfold enter
  rw [if_pos (by simp [closureFun])]
  simp [closureFun, exec, evalC, evalCs, bindParams, Loc.setT, callClo, callArg, callCode, callEnv, callTmp, Th.setFrame, r0, r1, hcall, afterCall]

/-! ## Predecessors -/

theorem mkGmp_ok {mpz : Nat → Option Int} {q : Nat} {h h' : Th} (hr : reserve W 2 h = .ok h') (hroom : h'.alloc + 2 ≤ h'.limit) :
    ∃ h'', mkGmp W mpz q h = .ok (.ptr (h'.alloc + 1)) mpz h'' ∧ h''.mem (h'.alloc + 1) = some (.raw q) ∧ h''.mem h'.alloc = some (.int 1275) ∧ h''.alloc = h'.alloc + 2 ∧
      h''.limit = h'.limit ∧ h''.frames = h'.frames ∧ h''.fp = h'.fp ∧ ∀ x, x < h'.alloc ∨ h'.alloc + 2 ≤ x → h''.mem x = h'.mem x := by
  unfold mkGmp
  rw [hr]
  simp only [storeAll]
  rw [if_pos (by omega), if_pos (by constructor <;> show _ <;> omega)]
  refine ⟨_, rfl, by simp [setMem], by simp [setMem], rfl, rfl, rfl, rfl, fun x hx => ?_⟩
  simp only [setMem]
  rw [if_neg (by omega), if_neg (by omega)]

/-- The predecessor of a natural number of any size, also if memory is collected on the way; numbers that exist are not changed. -/
theorem C79_pred {mpz : Nat → Option Int} {q : Nat} {g : GInt} {n : Nat} (hg : Reads g n) {h h' : Th} (hr : reserve W 2 h = .ok h') (hroom : h'.alloc + 2 ≤ h'.limit) :
    ∃ c mpz' h'' g', natPredC W mpz q g h = .ok c mpz' h'' ∧ gmpRead mpz' h''.mem c = some g' ∧ Reads g' ((n - 1 : Nat) : Int) ∧ ∀ a, a ≠ q → mpz' a = mpz a := by
  have hp := Gmp.C21_nat_pred hg
  unfold natPredC
  cases hq : Gmp.natPred g with
  | long w =>
    rw [hq] at hp
    exact ⟨.int w, mpz, h, .long w, rfl, rfl, hp, fun _ _ => rfl⟩
  | big z =>
    rw [hq] at hp
    obtain ⟨h'', e1, e2, _⟩ := mkGmp_ok (mpz := fun a => if a = q then some z else mpz a) (q := q) hr hroom
    exact ⟨_, _, h'', .big z, e1, by simp [gmpRead, e2], hp, fun a ha => if_neg ha⟩

/-! ## Cases -/

/-- **C79.** The case on a number that is a machine integer.  Missing: larger numbers (see C79_big_partial, C79_collect_refuted) and fewer than two C parameters
(see C79_args_refuted). -/
theorem C79_case_partial (hL : Linked G S C W B e body M) (hn : 2 ≤ C.nParam) (fuel d : Nat) (h : Th) (hb : ∀ k, OnChain h k → k < d) (hle : h.alloc ≤ h.limit)
    (hok : h.Ok G S.cenv B) {u : Tag} {iu : Ctor.Info} (hu : S.cenv u = some iu) (hu0 : iu.arity = 0) (hu1 : iu.ordinal = 0) {n : Nat} (hs : n < 2 ^ 62)
    {zero succ : Val} {c cz cs : CVal} (hc : h.Rep G S.cenv B (.prim (.int n)) c) (hz : h.Rep G S.cenv B zero cz) (hsu : h.Rep G S.cenv B succ cs)
    (mpz : Nat → Option Int) (q : Nat) :
    Sim G S.cenv B d h (caseSpec S (.constr u []) fuel n zero succ) (natCase W (callC W M.2 (fuel + 1)) mpz q d c cz cs h) := by
  have hc' : c = .int (n * 2 + 1) := by cases hc; rfl
  subst hc'
  have hreads : Reads (.long ((n : Int) * 2 + 1)) n := by
    have := Reads.long (n : Int) (by omega) (by exact_mod_cast hs)
    rwa [Int.mul_comm 2] at this
  unfold natCase
  simp only [gmpRead]
  match n, hreads, hs with
  | 0, hreads, _ =>
    rw [if_pos ((Gmp.C21_is_zero hreads).2 rfl)]
    refine C79_call_partial hL hn fuel d h hb hle hok hz ?_
    have := VRep.enum (G := G) (B := B) (mem := h.mem) (lo := h.alloc) (hi := h.limit) hu hu0
    rw [hu1] at this
    exact this
  | k + 1, hreads, hs =>
    rw [if_neg (fun h => by have := (Gmp.C21_is_zero hreads).1 h; omega)]
    have hp : Gmp.natPred (.long (((k + 1 : Nat) : Int) * 2 + 1)) = .long ((k : Int) * 2 + 1) := by
      have h1 := Gmp.C21_nat_pred hreads
      obtain ⟨w, hw⟩ : ∃ w, Gmp.natPred (.long (((k + 1 : Nat) : Int) * 2 + 1)) = .long w := by
        simp only [Gmp.natPred]
        split <;> exact ⟨_, rfl⟩
      rw [hw] at h1 ⊢
      have := (Gmp.reads_long h1).1
      rw [this]
      congr 1
      push_cast
      omega
    simp only [natPredC, hp]
    exact C79_call_partial hL hn fuel d h hb hle hok hsu .int

/-- The case on a larger number, if no memory has to be collected: the second function is called with a number that is one less.  Missing: collections. -/
theorem C79_big_partial (call : Nat → Var → List CVal → Th → Out) {mpz : Nat → Option Int} {q d r p : Nat} {z : Int} (hz : z ≠ 0) {h : Th} (hr : h.mem r = some (.raw p))
    (hp : mpz p = some z) (hroom : h.alloc + 2 ≤ h.limit) (cz cs : CVal) :
    ∃ h'' : Th, natCase W call mpz q d (.ptr r) cz cs h = enter W call closureFun d [cs, .ptr (h.alloc + 1)] h'' ∧
      gmpRead (fun a => if a = q then some (z - 1) else mpz a) h''.mem (.ptr (h.alloc + 1)) = some (.big (z - 1)) ∧ h''.alloc = h.alloc + 2 ∧ h''.limit = h.limit ∧
      h''.frames = h.frames ∧ h''.fp = h.fp ∧ ∀ x, x < h.alloc ∨ h.alloc + 2 ≤ x → h''.mem x = h.mem x := by
  have hres : reserve W 2 h = .ok h := by rw [reserve, if_pos (by push_cast; omega)]
  obtain ⟨h'', e1, e2, _, e3, e4, e5, e6, e7⟩ := mkGmp_ok (mpz := fun a => if a = q then some (z - 1) else mpz a) (q := q) hres hroom
  refine ⟨h'', ?_, by simp [gmpRead, e2], e3, e4, e5, e6, e7⟩
  simp only [natCase, gmpRead, hr, hp, Option.map_some, Gmp.isZero, decide_eq_true_eq, if_neg hz, natPredC, Gmp.natPred, e1]

/-- **C79, refuted for zero.** The product of 0 and a number is a zero that GMP has allocated; in this case the first function is not applied to `tt` but to the number. -/
theorem C79_zero_refuted (call : Nat → Var → List CVal → Th → Out) {mpz : Nat → Option Int} {q d r p : Nat} {h : Th} (hr : h.mem r = some (.raw p)) (hp : mpz p = some 0)
    (cz cs : CVal) : Gmp.mul (.long 1) (.long 5) = .big 0 ∧ natCase W call mpz q d (.ptr r) cz cs h = enter W call closureFun d [cz, .ptr r] h ∧
      ∀ u, ¬ h.Rep G S.cenv B (.constr u []) (.ptr r) := by
  refine ⟨by decide, ?_, ?_⟩
  · simp only [natCase, gmpRead, hr, hp, Option.map_some, Gmp.isZero, decide_true, if_true]
  · intro u hu
    cases hu with
    | boxed _ _ h3 => simp at h3

/-- **C79, refuted for collections.** If memory has to be collected for the predecessor, and the collection leaves no function where the closure was, the behaviour is undefined: the
function to call is read from the old place of the closure. -/
theorem C79_collect_refuted (call : Nat → Var → List CVal → Th → Out) {mpz : Nat → Option Int} {q d r p s : Nat} {z : Int} (hz : z ≠ 0) {h h' : Th} (hr : h.mem r = some (.raw p))
    (hp : mpz p = some z) (hfull : h.limit < h.alloc + 2) (hgc : W.gc { h with nalloc := 2 } = .ok h') (hroom : h'.alloc + 2 ≤ h'.limit)
    (hs : s < h'.alloc ∨ h'.alloc + 2 ≤ s) (hold : ∀ f, h'.mem s ≠ some (.fn f)) (cz : CVal) : natCase W call mpz q d (.ptr r) cz (.ptr s) h = .ub := by
  have hres : reserve W 2 h = .ok h' := by rw [reserve, if_neg (by push_cast; omega)]; exact hgc
  obtain ⟨h'', e1, e2, _, e3, e4, e5, e6, e7⟩ := mkGmp_ok (mpz := fun a => if a = q then some (z - 1) else mpz a) (q := q) hres hroom
  simp only [natCase, gmpRead, hr, hp, Option.map_some, Gmp.isZero, decide_eq_true_eq, if_neg hz, natPredC, Gmp.natPred, e1]
  unfold enter
  rw [if_pos (by simp [closureFun])]
  have hm : readAt h''.mem s 0 = h'.mem s := by
    rw [readAt, if_pos (by omega), show ((s : Int) + 0).toNat = s by omega, e7 s hs]
  cases hv : h'.mem s with
  | none => simp [closureFun, exec, evalC, bindParams, callClo, callArg, Th.setFrame, hm, hv]
  | some x =>
    have hx : ∀ f, x ≠ .fn f := fun f hf => hold f (by rw [hv, hf])
    simp only [closureFun, exec, evalC, bindParams, callClo, callArg, callCode, callEnv, Th.setFrame, hm, hv, Loc.setT]
    cases h1 : readAt h''.mem s 1 <;> cases x <;> simp_all [evalC, evalCs, readAt]

/-! ## A program -/

/-- The closure of `add` over `O` at 51 and a large number at 61, whose digits are at 7; the nursery has `n` free words from 100 on. -/
def thCase (n : Nat) : Th :=
  { th0 n with mem := fun a => if a = 50 then some (.int 2048) else if a = 51 then some (.fn 300) else if a = 52 then some (.int 1) else if a = 60 then some (.int 1275)
      else if a = 61 then some (.raw 7) else none }

theorem thCase_chain {n k : Nat} : ¬ OnChain (thCase n) k := by
  intro hk
  induction hk with
  | top h => simp [thCase, th0] at h
  | step _ _ ih => exact ih

theorem clo_rep {G : HeapI} (hG : ∀ mem lo hi p, G.obj mem lo hi p) {mem : Nat → Option CVal} {lo hi p : Nat} (hp : Outside lo hi p 2) (h0 : mem (p - 1) = some (.int 2048))
    (h1 : mem p = some (.fn 300)) (h2 : mem (p + 1) = some (.int 1)) : VRep G cenvClo defsAdd mem lo hi (.constr 102 [.fn emp defsAdd 300, .constr 100 []]) (.ptr p) := by
  refine .boxed (i := ⟨none, none, 102, 2, 0⟩) (cs := [.fn 300, .int 1]) rfl rfl (by simp) hp h0 rfl ?_ ?_ (hG _ _ _ _)
  · intro k c hc
    match k, hc with
    | 0, hc => cases hc; exact h1
    | 1, hc => cases hc; exact h2
  · intro k v c hv hc
    match k, hv, hc with
    | 0, hv, hc => cases hv; cases hc; exact .fn (by decide)
    | 1, hv, hc =>
      cases hv; cases hc
      exact .enum (i := ⟨none, none, 100, 0, 0⟩) rfl rfl

/-- The hypotheses of `C79_call_partial`, `C79_case_partial` and (with `np < 2`) `C79_args_refuted` are met: a compiled program, a state, and closures in it. -/
example (np n : Nat) : ∃ M, Linked .top ⟨cenvClo, fun _ _ => none⟩ ⟨np, 5, fun _ => none, cenvClo⟩ world0 defsAdd mainAdd 1 M ∧
    (∀ k, OnChain (thCase n) k → k < 0) ∧ (thCase n).alloc ≤ (thCase n).limit ∧ (thCase n).Ok .top cenvClo defsAdd ∧ findDef 300 defsAdd ≠ none ∧
    (thCase n).Rep .top cenvClo defsAdd (.constr 102 [.fn emp defsAdd 300, .constr 100 []]) (.ptr 51) ∧
    (thCase n).Rep .top cenvClo defsAdd (.prim (.int 5)) (.int 11) ∧ caseSpec ⟨cenvClo, fun _ _ => none⟩ (.constr 100 []) 3 5
      (.constr 102 [.fn emp defsAdd 300, .constr 100 []]) (.constr 102 [.fn emp defsAdd 300, .constr 100 []]) = .val (.prim (.int 4)) := by
  obtain ⟨M, hM⟩ := C24_compiles (B := defsAdd) (e := mainAdd) (ar := fun _ => 2) ⟨np, 5, fun _ => none, cenvClo⟩ 1
    (by simp [OkE, OkB, OkBs, defsAdd, mainAdd, cenvClo, cenvNat]) (by simp [FlatB, FlatE, FlatBs, defsAdd])
    (by simp [FlatE, mainAdd])
  refine ⟨M, ⟨rfl, cenvClo_ok, world0_ok cenvClo_ok _, prims_none _ _ _ _, HeapI.top_laws _ _, by show (5 : Nat) ∉ defsAdd.names; decide, hM,
    by simp [SeenE, SeenB, SeenBs, defsAdd, mainAdd, cenvClo, cenvNat], by decide, by decide⟩, fun k hk => (thCase_chain hk).elim, by simp [thCase, th0],
    ⟨trivial, fun _ h => (thCase_chain h).elim, fun _ h => (thCase_chain h).elim, fun _ h => (thCase_chain h).elim⟩, by simp [defsAdd, findDef],
    clo_rep (fun _ _ _ _ => trivial) (by simp [Outside, thCase, th0]) rfl rfl rfl, .int (n := 5), by rfl⟩

/-- The closure after a collection: it has moved to 151, its old place has the new address. -/
def thMoved (h : Th) : Th :=
  { h with alloc := 200, limit := 300, mem := fun a => if a = 50 then some (.int 0) else if a = 51 then some (.ptr 151) else if a = 150 then some (.int 2048)
      else if a = 151 then some (.fn 300) else if a = 152 then some (.int 1) else if a = 61 then some (.raw 7) else none }

/-- The hypotheses of `C79_collect_refuted` are met by a collection that keeps the closure: `nat_case (2 ^ 70) z (fun x => x)` when the nursery is full. -/
example (call : Nat → Var → List CVal → Th → Out) :
    (thCase 1).Rep .top cenvClo defsAdd (.constr 102 [.fn emp defsAdd 300, .constr 100 []]) (.ptr 51) ∧
    (thMoved (thCase 1)).Rep .top cenvClo defsAdd (.constr 102 [.fn emp defsAdd 300, .constr 100 []]) (.ptr 151) ∧
    natCase { world0 with gc := fun h => .ok (thMoved h) } call (fun a => if a = 7 then some (2 ^ 70) else none) 8 0 (.ptr 61) (.ptr 51) (.ptr 51) (thCase 1) = .ub :=
  ⟨clo_rep (fun _ _ _ _ => trivial) (by simp [Outside, thCase, th0]) rfl rfl rfl, clo_rep (fun _ _ _ _ => trivial) (by simp [Outside, thMoved]) rfl rfl rfl,
    C79_collect_refuted (h' := thMoved { thCase 1 with nalloc := 2 }) (p := 7) (z := 2 ^ 70) call (by decide) rfl rfl (by simp [thCase, th0]) rfl (by simp [thMoved])
      (by simp [thMoved]) (by simp [thMoved]) _⟩

end CGen
