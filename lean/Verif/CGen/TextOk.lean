import Verif.CGen.TextSim
import Verif.CPrint.NameProps
import Verif.CPrint.Props

/-!
# The C syntax of a compiled program is of the form whose text is read back
-/

namespace CGen.Text

open ANF
open CPrint (CE CS LS CTy CTys CFn Name Meaning varOk nameOk tempName)

/-- The names are identifiers. -/
structure Names.Ok (N : Names) : Prop where
  ext : ∀ x, varOk (N.ext x) = true
  tmp : ∀ x, nameOk (tempName (N.tmp x)) = true

variable {N : Names} {prims : Tag → Option Bool}

theorem Names.Ok.name (h : N.Ok) (x : Var) : nameOk (N.ext x) = true := by
  have := h.ext x
  rw [varOk, Bool.and_eq_true] at this
  exact this.1

theorem funTyList_ok : ∀ n, (funTyList n).ok = true
  | 0 => rfl
  | n + 1 => by rw [funTyList, CPrint.CTys.ok, funTyList_ok n]; rfl

theorem threadInf_ok (h : N.Ok) : (threadInf N).ok = true := by
  rw [threadInf, CTy.ok, CTy.ok, CPrint.Base.ok]
  exact h.name 31

theorem mkFunTy_ok (h : N.Ok) (n : Nat) : (mkFunTy N n).ok = true := by
  rw [mkFunTy, CTy.ok, CTys.ok, funTyList_ok, threadInf_ok h]
  rfl

theorem mkPrimTy_ok (n : Nat) : (mkPrimTy n).ok = true := by
  rw [mkPrimTy, CTy.ok, funTyList_ok]
  rfl

theorem lit_ok {z : Int} (h1 : -2 ^ 63 < z) (h2 : z < 2 ^ 63) : (lit z).ok = true := by
  have h3 : (z % 2 ^ 64).toNat < 2 ^ 64 := by omega
  have h4 : (z % 2 ^ 64).toNat ≠ 2 ^ 63 := by omega
  rw [lit, CE.ok, decide_eq_true h3]
  simp only [Bool.false_or, Bool.true_and, bne_iff_ne, ne_eq]
  exact h4

theorem nat_ok {n : Nat} (h : n < 2 ^ 63) : (lit n).ok = true := lit_ok (by omega) (by omega)

theorem ulit_ok (z : Int) : (ulit z).ok = true := by
  have h3 : (z % 2 ^ 64).toNat < 2 ^ 64 := by omega
  rw [ulit, CE.ok, decide_eq_true h3]
  rfl

theorem temp_ok (h : N.Ok) (x : Var) : CE.ok (.temp (N.tmp x)) = true := by rw [CE.ok]; exact h.tmp x

theorem var_ok (h : N.Ok) (x : Var) : CE.ok (.var (N.ext x)) = true := by rw [CE.ok]; exact h.ext x

theorem fieldE_ok (h : N.Ok) (x : Var) {n : Int} (h1 : -2 ^ 63 < n) (h2 : n < 2 ^ 63) : (fieldE N x n).ok = true := by
  rw [fieldE, CE.ok, CE.ok, CE.ok, lit_ok h1 h2, tvar, temp_ok h]
  rfl

theorem argE_ok (h : N.Ok) {i : Nat} (hi : i < 2 ^ 63) : (argE N i).ok = true := by
  rw [argE, CE.ok, CE.ok, nat_ok hi, temp_ok h]
  rfl

theorem rootE_ok (h : N.Ok) {i : Nat} (hi : i < 2 ^ 63) : (rootE N i).ok = true := by
  rw [rootE, CE.ok, CE.ok, nat_ok hi, roots, var_ok h]
  rfl

theorem tfield_ok (h : N.Ok) (f : Var) : (tfield N f).ok = true := by
  rw [tfield, CE.ok, CE.ok, tinf, temp_ok h, h.name f]
  rfl

theorem ffield_ok (h : N.Ok) (f : Var) : (ffield N f).ok = true := by
  rw [ffield, CE.ok, var_ok h, h.name f]
  rfl

theorem elE_ok (hN : N.Ok) {e : CExpr} {c : CE} (h : ElE N e c) (g : goodE prims e) : c.ok = true := by
  cases h with
  | temp x => exact temp_ok hN x
  | func f => exact var_ok hN f
  | slit z hz => exact lit_ok (by have := g.1; omega) hz
  | ulit z => exact ulit_ok z
  | field x n => exact fieldE_ok hN x g.2.1 g.2.2
  | arg i => exact argE_ok hN g
  | root i => exact rootE_ok hN g
  | alloc n =>
    rw [CE.ok, CE.ok, nat_ok g, allocP, temp_ok hN]
    rfl

theorem elEs_ok (hN : N.Ok) : ∀ {es : List CExpr} {cs : List CE}, List.Forall₂ (ElE N) es cs → (∀ e ∈ es, goodE prims e) →
    cs.all CE.ok = true
  | [], _, .nil, _ => rfl
  | e :: es, c :: cs, .cons h1 h2, g => by
    rw [List.all_cons, elE_ok hN h1 (g e (by simp)), elEs_ok hN h2 fun e he => g e (by simp [he])]
    rfl

mutual
theorem el_ok (hN : N.Ok) : ∀ {s : CStmt} {c : CS}, El N s c → good prims s → c.ok = true
  | _, _, .skip, _ => rfl
  | .seq a b, .seq c d, .seq h1 h2, g => by
    rw [good] at g
    rw [CS.ok, el_ok hN h1 g.1, el_ok hN h2 g.2]
    rfl
  | _, _, .assoc h1, g => by
    refine el_ok hN h1 ?_
    simp only [good] at g ⊢
    exact ⟨g.1.1, g.1.2, g.2⟩
  | .seq .skip a, c, .skipL h1, g => by
    simp only [good, true_and] at g
    exact el_ok hN h1 g
  | .set x e, .set _ c, .set _ he, g => by
    rw [good] at g
    rw [CS.ok, hN.tmp x, elE_ok hN he g.2]
    rfl
  | .setField x n e, .assign _ c, .setField _ _ he, g => by
    rw [good] at g
    rw [CS.ok, elE_ok hN he g.2.2.2, fieldE_ok hN x g.2.1 g.2.2.1]
    rfl
  | .setArg i e, .assign _ c, .setArg _ he, g => by
    rw [good] at g
    rw [CS.ok, elE_ok hN he g.2, argE_ok hN g.1]
    rfl
  | .setRoot i e, .assign _ c, .setRoot _ he, g => by
    rw [good] at g
    rw [CS.ok, elE_ok hN he g.2, rootE_ok hN g.1]
    rfl
  | .bump n, _, .bump _, g => by
    rw [good] at g
    rw [CS.ok, CE.ok, nat_ok g, hN.tmp, allocP, temp_ok hN]
    rfl
  | _, _, .loadAlloc, _ => by
    rw [loadAlloc, CS.ok, hN.tmp, tfield_ok hN]
    rfl
  | _, _, .loadLimit, _ => by
    rw [loadLimit, CS.ok, hN.tmp, tfield_ok hN]
    rfl
  | _, _, .loadArgs, _ => by
    rw [loadArgs, CS.ok, hN.tmp, tfield_ok hN]
    rfl
  | _, _, .saveAlloc, _ => by
    rw [saveAlloc, CS.ok, tfield_ok hN, allocP, temp_ok hN]
    rfl
  | _, _, .saveLimit, _ => by
    rw [saveLimit, CS.ok, tfield_ok hN, limitP, temp_ok hN]
    rfl
  | _, _, .initStack, _ => by
    rw [initStack, CS.ok, CS.ok, CS.ok, CS.ok, CS.ok]
    simp only [ffield_ok hN, tfield_ok hN, roots, var_ok hN]
    rfl
  | _, _, .setNext n, g => by
    rw [good] at g
    rw [CS.ok, CE.ok, nat_ok g, ffield_ok hN, roots, var_ok hN]
    rfl
  | _, _, .link, _ => by
    rw [CS.ok, CE.ok, tfield_ok hN, var_ok hN]
    rfl
  | _, _, .unlink, _ => by
    rw [CS.ok, tfield_ok hN, ffield_ok hN]
    rfl
  | _, _, .setNalloc n, g => by
    rw [good] at g
    rw [CS.ok, tfield_ok hN, nat_ok g]
    rfl
  | _, _, .gc, _ => by
    rw [CS.ok, var_ok hN, tinf, List.all_cons, temp_ok hN]
    rfl
  | .call x f es, .call _ (.cast c _) (_ :: cs), .call _ hf hes, g => by
    rw [good] at g
    rw [CS.ok, CE.ok, List.all_cons, elEs_ok hN hes g.2.2, elE_ok hN hf g.2.1, hN.tmp, tinf, temp_ok hN, CTy.decay, CTy.absOk, CTy.ok,
      mkFunTy_ok hN]
    all_goals simp [CE.calleeOk]
  | .prim x p es, .call _ _ cs, .prim _ _ hes, g => by
    rw [good] at g
    have := mkPrimTy_ok es.length
    rw [mkPrimTy] at this
    rw [CS.ok, CE.ok, elEs_ok hN hes g.2.2.2, var_ok hN, hN.tmp, mkPrimTy, CTy.decay, CTy.absOk, CTy.ok, this]
    all_goals simp [CE.calleeOk]
  | .primT x p es, .call _ _ (_ :: cs), .primT _ _ hes, g => by
    rw [good] at g
    have := mkFunTy_ok hN es.length
    rw [mkFunTy] at this
    rw [CS.ok, CE.ok, List.all_cons, elEs_ok hN hes g.2.2.2, var_ok hN, hN.tmp, tinf, temp_ok hN, mkFunTy, CTy.decay, CTy.absOk, CTy.ok, this]
    all_goals simp [CE.calleeOk]
  | .ifLow n s, .ite _ c _, .ifLow _ hs, g => by
    rw [good] at g
    rw [CS.ok, CE.ok, CE.ok, CE.ok, el_ok hN hs g.2, nat_ok g.1, limitP, temp_ok hN, allocP, temp_ok hN]
    rfl
  | .ifPtr x a b, .ite _ c d, .ifPtr _ ha hb, g => by
    rw [good] at g
    rw [CS.ok, el_ok hN ha g.2.1, el_ok hN hb g.2.2, isPtr, CE.ok, CE.ok, CE.ok, CE.ok, tvar, temp_ok hN]
    rfl
  | .switchTag x ls, .switch _ ms, .switchTag _ hls, g => by
    rw [good] at g
    rw [CS.ok, elL_ok hN hls g.2, CE.ok, fieldE_ok hN x (by decide) (by decide)]
    rfl
  | .switchOrd x ls, .switch _ ms, .switchOrd _ hls, g => by
    rw [good] at g
    rw [CS.ok, elL_ok hN hls g.2, CE.ok, tvar, temp_ok hN]
    rfl
  | _, _, .brk, _ => rfl
  | .ret e, .ret (some c), .ret he, g => by
    rw [good] at g
    rw [CS.ok, elE_ok hN he g]
theorem elL_ok (hN : N.Ok) : ∀ {ls : LStmt} {ms : LS}, ElL N ls ms → goodL prims ls → ms.ok = true
  | _, _, .nil, _ => rfl
  | .cons lab (.seq s .brk) ls, .cons _ (.seq c .brk) ms, .cons _ hs hls, g => by
    rw [goodL, good] at g
    have h1 := el_ok hN hs g.1.1
    have h2 := elL_ok hN hls g.2
    cases ms with
    | nil =>
      rw [LS.ok, CS.ok, h1]
      simp [CS.ok, CS.isSkip]
    | cons l s' r =>
      rw [LS.ok, CS.ok, h1, h2]
      · rfl
      · simp
end

theorem elF_ok (hN : N.Ok) {F : CFun} {G : CFn} (h : ElF N F G) (g : good prims F.body) : G.ok = true := by
  have h1 : G.params.all (fun p => nameOk (tempName p.1) && p.2.ok) = true := by
    rw [h.params, List.all_eq_true]
    intro p hp
    rcases List.mem_cons.1 hp with rfl | hp
    · simp [hN.tmp, threadInf_ok hN]
    · obtain ⟨x, -, rfl⟩ := List.mem_map.1 hp
      rw [hN.tmp x]
      rfl
  have h2 : G.vars.all (fun p => nameOk p.1 && p.2.ok) = true := by
    rw [h.vars, stackDecl]
    have h3 : (stackframeT N).ok = true := by
      rw [stackframeT, CTy.ok, CPrint.Base.ok]
      exact hN.name 78
    simp [hN.name, h3, CTy.ok, val, CPrint.Base.ok]
  have h3 : G.temps.all (fun p => nameOk (tempName p.1) && p.2.ok) = true := by
    rw [List.all_eq_true]
    intro p hp
    obtain ⟨⟨x, hx⟩, ht⟩ := h.temps p hp
    rw [hx, hN.tmp x]
    rcases ht with ht | ht | ht <;> rw [ht] <;> rfl
  rw [CFn.ok, h.name, hN.name, h.ret, h1, h.va, h2, h3, el_ok hN h.body g]
  rfl

/-- The names of the printer are identifiers, different for different variables (C63). -/
theorem names_of {body prims m} (ok : CPrint.NamesOk body prims m) :
    (Names.of (CPrint.finalTable body prims m)).Ok ∧ (Names.of (CPrint.finalTable body prims m)).Inj where
  left := {
    ext := fun x => by
      have := CPrint.C63_extern_identifier ok x
      simp only [CPrint.cIdent, Bool.and_eq_true] at this
      exact this.1.1
    tmp := fun x => (CPrint.C63_temporary_identifier ok x 0).1 }
  right := {
    ext := fun h => CPrint.C63_extern_distinct ok h
    tmp := fun {x y} h => CPrint.C63_temporary_distinct ok (x := x) (y := y) (congrArg (List.cons '$') h) }

end CGen.Text
