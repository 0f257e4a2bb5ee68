import Verif.CGen.TextRel
import Verif.CGen.TextSpec
import Mathlib.Tactic.SplitIfs

/-!
# The C syntax of a statement does what the statement does
-/

namespace CGen.Text

open ANF
open CPrint (CE CS LS CTy CTys CFn Name Meaning)

/-- A variable of the program is none of `args`, `alloc`, `limit`, `tinfo`. -/
def tOk (x : Var) : Prop := x ≠ 26 ∧ x ≠ 28 ∧ x ≠ 29 ∧ x ≠ 91

/-- A function of the program or a primitive is none of `frame`, `garbage_collect`, `roots`. -/
def fOk (f : Var) : Prop := f ≠ 79 ∧ f ≠ 80 ∧ f ≠ 84

/-- Variables are those of the program and numbers fit in a word. -/
def goodE (prims : Tag → Option Bool) : CExpr → Prop
  | .temp x => tOk x
  | .func f => fOk f ∧ prims f = none
  | .cst (.int z) => 0 ≤ z ∧ z < 2 ^ 64
  | .cst _ => False
  | .field x n => tOk x ∧ -2 ^ 63 < n ∧ n < 2 ^ 63
  | .arg i => i < 2 ^ 63
  | .root i => i < 2 ^ 63
  | .alloc n => n < 2 ^ 63

mutual
/-- Variables are those of the program and numbers fit in a word. -/
def good (prims : Tag → Option Bool) : CStmt → Prop
  | .seq a b => good prims a ∧ good prims b
  | .set x e => tOk x ∧ goodE prims e
  | .setField x n e => tOk x ∧ -2 ^ 63 < n ∧ n < 2 ^ 63 ∧ goodE prims e
  | .setArg i e => i < 2 ^ 63 ∧ goodE prims e
  | .setRoot i e => i < 2 ^ 63 ∧ goodE prims e
  | .bump n => n < 2 ^ 63
  | .setNext n => n < 2 ^ 63
  | .setNalloc n => n < 2 ^ 63
  | .call x f es => tOk x ∧ goodE prims f ∧ ∀ e ∈ es, goodE prims e
  | .prim x p es => tOk x ∧ fOk p ∧ prims p = some false ∧ ∀ e ∈ es, goodE prims e
  | .primT x p es => tOk x ∧ fOk p ∧ prims p = some true ∧ ∀ e ∈ es, goodE prims e
  | .ifLow n s => n < 2 ^ 63 ∧ good prims s
  | .ifPtr x a b => tOk x ∧ good prims a ∧ good prims b
  | .switchTag x ls => tOk x ∧ goodL prims ls
  | .switchOrd x ls => tOk x ∧ goodL prims ls
  | .ret e => goodE prims e
  | _ => True
/-- The same for labelled statements. -/
def goodL (prims : Tag → Option Bool) : LStmt → Prop
  | .nil => True
  | .cons _ s ls => good prims s ∧ goodL prims ls
end

/-- Different identifiers have different names. -/
structure Names.Inj (N : Names) : Prop where
  ext : ∀ {x y}, N.ext x = N.ext y → x = y
  tmp : ∀ {x y}, N.tmp x = N.tmp y → x = y

theorem dext_ext {N : Names} (hN : N.Inj) (x : Var) : N.dext (N.ext x) = some x := by
  have h : ∃ y, N.ext y = N.ext x := ⟨x, rfl⟩
  rw [Names.dext, dif_pos h]
  exact congrArg some (hN.ext h.choose_spec)

theorem dtmp_tmp {N : Names} (hN : N.Inj) (x : Var) : N.dtmp (N.tmp x) = some x := by
  have h : ∃ y, N.tmp y = N.tmp x := ⟨x, rfl⟩
  rw [Names.dtmp, dif_pos h]
  exact congrArg some (hN.tmp h.choose_spec)

variable {E : Env}

theorem constVal_lit {z : Int} (h1 : -2 ^ 63 ≤ z) (h2 : z < 2 ^ 63) : constVal 64 (z % 2 ^ 64).toNat false = z := by
  simp only [constVal, Bool.false_eq_true, if_false]
  split <;> omega

theorem constVal_ulit {z : Int} (h1 : 0 ≤ z) (h2 : z < 2 ^ 64) : constVal 64 (z % 2 ^ 64).toNat true = z := by
  simp only [constVal, if_true]
  omega

theorem den_lit {z : Int} (h1 : -2 ^ 63 ≤ z) (h2 : z < 2 ^ 63) : (lit z).den (meaning E) = .ofRV fun _ _ => some (.v (.int z)) := by
  have : (lit z).den (meaning E) = .ofRV fun _ _ => some (.v (.int (constVal 64 (z % 2 ^ 64).toNat false))) := rfl
  rw [this, constVal_lit h1 h2]

theorem den_ulit {z : Int} (h1 : 0 ≤ z) (h2 : z < 2 ^ 64) : (ulit z).den (meaning E) = .ofRV fun _ _ => some (.v (.int z)) := by
  have : (ulit z).den (meaning E) = .ofRV fun _ _ => some (.v (.int (constVal 64 (z % 2 ^ 64).toNat true))) := rfl
  rw [this, constVal_ulit h1 h2]

theorem den_nat {n : Nat} (h : n < 2 ^ 63) : (lit n).den (meaning E) = .ofRV fun _ _ => some (.v (.int n)) :=
  den_lit (by omega) (by omega)

theorem den_temp (hN : E.N.Inj) (x : Var) : CE.den (meaning E) (.temp (E.N.tmp x)) = .ofLV E fun _ _ => some (.temp x) := by
  show tempD E (E.N.tmp x) = _
  rw [tempD, dtmp_tmp hN]
  rfl

theorem load_tvar {l : Loc} {h : Th} {x : Var} (hx : tOk x) : load E l h (.temp x) = (l.temps x).map .v := by
  simp [load, hx.1, hx.2.1, hx.2.2.1, hx.2.2.2]

theorem store_tvar {l : Loc} {h : Th} {x : Var} (hx : tOk x) (c : CVal) : store E l h (.temp x) (.v c) = some (l.setT x c, h) := by
  simp [store, hx.1, hx.2.1, hx.2.2.1, hx.2.2.2]

theorem rv_tvar (hN : E.N.Inj) {x : Var} (hx : tOk x) (l : Loc) (h : Th) :
    ((tvar E.N x).den (meaning E)).rv l h = (l.temps x).map .v := by
  rw [tvar, den_temp hN]
  exact load_tvar (E := E) (h := h) hx

theorem rv_tinf (hN : E.N.Inj) (l : Loc) (h : Th) : ((tinf E.N).den (meaning E)).rv l h = some .tinfo := by
  rw [tinf, den_temp hN]
  rfl

theorem lv_fieldE (hN : E.N.Inj) {x : Var} (hx : tOk x) {n : Int} (h1 : -2 ^ 63 < n) (h2 : n < 2 ^ 63) (l : Loc) (h : Th) :
    ((fieldE E.N x n).den (meaning E)).lv l h = match l.temps x with
      | some (.ptr a) => some (.mem (a + n))
      | _ => none := by
  show (match (binopD .add (castD ((tvar E.N x).den (meaning E)) valPtr) ((lit n).den (meaning E))).rv l h with
    | some (.heap a) => some (LV.mem a)
    | some (.args i) => some (.arg i)
    | some (.root i) => some (.root i)
    | some .tinfo => some .tinfo
    | _ => none) = _
  rw [den_lit (by omega) h2]
  simp only [binopD, castD, Den.ofRV, rv_tvar hN hx]
  cases l.temps x with
  | none => rfl
  | some c => cases c <;> rfl

theorem rv_deref (d : CE) (l : Loc) (h : Th) : ((CE.deref d).den (meaning E)).rv l h = (((CE.deref d).den (meaning E)).lv l h).bind (load E l h) :=
  rfl

theorem lv_argE (hN : E.N.Inj) {i : Nat} (hi : i < 2 ^ 63) (l : Loc) (h : Th) :
    ((argE E.N i).den (meaning E)).lv l h = if l.argsSet then some (.arg i) else none := by
  show (match (binopD .add (CE.den (meaning E) (.temp (E.N.tmp 26))) ((lit i).den (meaning E))).rv l h with
    | some (.heap a) => some (LV.mem a)
    | some (.args i) => some (.arg i)
    | some (.root i) => some (.root i)
    | some .tinfo => some .tinfo
    | _ => none) = _
  rw [den_nat hi, den_temp hN]
  simp only [binopD, Den.ofRV, Den.ofLV, Option.bind_some, load]
  cases l.argsSet <;> simp [binopV]

theorem den_roots (hN : E.N.Inj) : (roots E.N).den (meaning E) = .ofRV fun _ _ => some (.root 0) := by
  show varD E (E.N.ext 84) = _
  rw [varD, dext_ext hN]
  rfl

theorem lv_rootE (hN : E.N.Inj) {i : Nat} (hi : i < 2 ^ 63) (l : Loc) (h : Th) :
    ((rootE E.N i).den (meaning E)).lv l h = some (.root i) := by
  show (match (binopD .add ((roots E.N).den (meaning E)) ((lit i).den (meaning E))).rv l h with
    | some (.heap a) => some (LV.mem a)
    | some (.args i) => some (.arg i)
    | some (.root i) => some (.root i)
    | some .tinfo => some .tinfo
    | _ => none) = _
  rw [den_nat hi, den_roots hN]
  simp [binopD, Den.ofRV, binopV]

theorem den_tfield (hN : E.N.Inj) (f : Var) : (tfield E.N f).den (meaning E) = .ofLV E fun _ _ => some (.tfield f) := by
  show fieldD E (derefD E ((tinf E.N).den (meaning E))) (E.N.ext f) = _
  simp only [fieldD, dext_ext hN, derefD, Den.ofLV, rv_tinf hN]

theorem den_frame (hN : E.N.Inj) : CE.den (meaning E) (.var (E.N.ext 79)) = .ofLV E fun _ _ => some .frame := by
  show varD E (E.N.ext 79) = _
  rw [varD, dext_ext hN]
  rfl

theorem den_ffield (hN : E.N.Inj) (f : Var) : (ffield E.N f).den (meaning E) = .ofLV E fun _ _ => some (.ffield f) := by
  show fieldD E (CE.den (meaning E) (.var (E.N.ext 79))) (E.N.ext f) = _
  rw [den_frame hN]
  simp only [fieldD, dext_ext hN, Den.ofLV]

theorem den_fn (hN : E.N.Inj) {f : Var} (hf : fOk f) (hp : E.prims f = none) :
    CE.den (meaning E) (.var (E.N.ext f)) = .ofRV fun _ _ => some (.v (.fn f)) := by
  show varD E (E.N.ext f) = _
  rw [varD, dext_ext hN]
  simp [hf.1, hf.2.1, hf.2.2, hp]

theorem den_prim (hN : E.N.Inj) {f : Var} {b : Bool} (hf : fOk f) (hp : E.prims f = some b) :
    CE.den (meaning E) (.var (E.N.ext f)) = .ofRV fun _ _ => some (.prim f) := by
  show varD E (E.N.ext f) = _
  rw [varD, dext_ext hN]
  simp [hf.1, hf.2.1, hf.2.2, hp]

theorem den_gc (hN : E.N.Inj) : CE.den (meaning E) (.var (E.N.ext 80)) = .ofRV fun _ _ => some .gc := by
  show varD E (E.N.ext 80) = _
  rw [varD, dext_ext hN]
  rfl

/-- The value of an expression. -/
theorem elE_rv (hN : E.N.Inj) {e : CExpr} {c : CE} (he : ElE E.N e c) (g : goodE E.prims e) (l : Loc) (h : Th) :
    (c.den (meaning E)).rv l h = (evalC E.me l h e).map .v := by
  cases he with
  | temp x => exact rv_tvar hN g l h
  | func f =>
    rw [den_fn hN g.1 g.2]
    rfl
  | slit z hz =>
    rw [den_lit (by have := g.1; omega) hz]
    rfl
  | ulit z =>
    rw [den_ulit g.1 g.2]
    rfl
  | field x n =>
    rw [fieldE, rv_deref, ← fieldE, lv_fieldE hN g.1 g.2.1 g.2.2]
    simp only [evalC]
    cases l.temps x with
    | none => rfl
    | some c =>
      cases c with
      | ptr a =>
        simp only [Option.bind_some, load, readAt]
        split <;> rfl
      | _ => rfl
  | arg i =>
    rw [argE, rv_deref, ← argE, lv_argE hN g]
    simp only [evalC]
    cases l.argsSet
    · rfl
    · simp only [if_true, Option.bind_some, load, true_and, Int.natCast_nonneg, Int.toNat_natCast]
      split <;> rfl
  | root i =>
    rw [rootE, rv_deref, ← rootE, lv_rootE hN g]
    simp only [evalC, Option.bind_some, load, true_and, Int.natCast_nonneg, Int.toNat_natCast]
    split <;> rfl
  | alloc n =>
    show (castD (binopD .add (CE.den (meaning E) (.temp (E.N.tmp 28))) ((lit n).den (meaning E))) val).rv l h = _
    rw [den_nat g, den_temp hN]
    simp only [castD, binopD, Den.ofRV, Den.ofLV, Option.bind_some, load, if_true, binopV, val, castV, evalC, Option.map_some]
    rw [if_pos (by omega)]
    simp
    omega

/-- The values of arguments. -/
theorem elEs_words (hN : E.N.Inj) {l : Loc} {h : Th} : ∀ {es : List CExpr} {cs : List CE}, List.Forall₂ (ElE E.N) es cs →
    (∀ e ∈ es, goodE E.prims e) → evalAll l h (cs.map (CE.den (meaning E))) = (evalCs E.me l h es).map (·.map .v)
  | [], _, .nil, _ => rfl
  | e :: es, c :: cs, .cons h1 h2, g => by
    rw [List.map_cons, evalAll, elE_rv hN h1 (g e (by simp)), elEs_words hN h2 fun e he => g e (by simp [he]), evalCs]
    cases evalC E.me l h e <;> cases evalCs E.me l h es <;> rfl

theorem words_map : ∀ cs : List CVal, words (cs.map .v) = some cs
  | [] => rfl
  | c :: cs => by rw [List.map_cons, words, words_map cs]; rfl

/-- A state in which nothing is done any more. -/
def St.stopped : St → Prop
  | .run _ _ => False
  | _ => True

/-- `break` leaves the switch. -/
def unbrk : Option (CPrint.Out Den × St) → Option (CPrint.Out Den × St)
  | some (.brk, σ') => some (.normal, σ')
  | o => o

theorem exec_switch (e : CE) (ls : LS) (σ : St) : ∀ {z : Option Int}, (meaning E).index (e.den (meaning E)) σ = z →
    (CS.switch e ls).exec (meaning E) σ = match z with
    | some z => unbrk (match ls.from (meaning E) (some z) σ with
        | some r => r
        | none => match ls.from (meaning E) none σ with
          | some r => r
          | none => some (.normal, σ))
    | none => none := by
  intro z hz
  rw [CS.exec, hz]
  cases z with
  | none => rfl
  | some z =>
    simp only
    cases ls.from (meaning E) (some z) σ with
    | some r =>
      cases r with
      | none => rfl
      | some p =>
        obtain ⟨o, σ'⟩ := p
        cases o <;> rfl
    | none =>
      cases ls.from (meaning E) none σ with
      | none => rfl
      | some r =>
        cases r with
        | none => rfl
        | some p =>
          obtain ⟨o, σ'⟩ := p
          cases o <;> rfl

/-- What follows is done if nothing has been left. -/
def thenD (r : Option (CPrint.Out Den × St)) (k : St → Option (CPrint.Out Den × St)) : Option (CPrint.Out Den × St) :=
  match r with
  | some (.normal, σ') => k σ'
  | o => o

theorem exec_seq (a b : CS) (σ : St) : (CS.seq a b).exec (meaning E) σ = thenD (a.exec (meaning E) σ) (b.exec (meaning E)) := by
  rw [CS.exec]
  cases a.exec (meaning E) σ with
  | none => rfl
  | some p =>
    obtain ⟨o, σ'⟩ := p
    cases o <;> rfl

theorem all_cons (l : Option Int) (s : CS) (ls : LS) (σ : St) :
    (LS.cons l s ls).all (meaning E) σ = thenD (s.exec (meaning E) σ) (ls.all (meaning E)) := by
  rw [LS.all]
  cases s.exec (meaning E) σ with
  | none => rfl
  | some p =>
    obtain ⟨o, σ'⟩ := p
    cases o <;> rfl

theorem from_cons (l z : Option Int) (s : CS) (ls : LS) (σ : St) : (LS.cons l s ls).from (meaning E) z σ =
    if l = z then some (thenD (s.exec (meaning E) σ) (ls.all (meaning E))) else ls.from (meaning E) z σ := by
  rw [LS.from]
  split
  · cases s.exec (meaning E) σ with
    | none => rfl
    | some p =>
      obtain ⟨o, σ'⟩ := p
      cases o <;> rfl
  · rfl

theorem stop_unbreak {σ : St} {r : Option (CPrint.Out Den × St)} (h : ∃ o, r = some (o, σ)) : ∃ o, unbrk r = some (o, σ) := by
  obtain ⟨o, rfl⟩ := h
  cases o <;> exact ⟨_, rfl⟩

mutual
theorem stop_exec : ∀ (c : CS) {σ : St}, σ.stopped → ∃ o, c.exec (meaning E) σ = some (o, σ)
  | .skip, σ, h => ⟨_, rfl⟩
  | .assign a b, σ, h => by
    cases σ with
    | run => cases h
    | oot => exact ⟨_, rfl⟩
    | abort => exact ⟨_, rfl⟩
  | .set x e, σ, h => by
    cases σ with
    | run => cases h
    | oot => exact ⟨_, rfl⟩
    | abort => exact ⟨_, rfl⟩
  | .call r f args, σ, h => by
    cases σ with
    | run => cases h
    | oot => exact ⟨_, rfl⟩
    | abort => exact ⟨_, rfl⟩
  | .seq a b, σ, h => by
    obtain ⟨o, ho⟩ := stop_exec a h
    rw [CS.exec, ho]
    cases o with
    | normal => exact stop_exec b h
    | brk => exact ⟨_, rfl⟩
    | ret => exact ⟨_, rfl⟩
  | .ite e a b, σ, h => by
    have ht : (meaning E).truth (e.den (meaning E)) σ = some (e.den (meaning E)).par := by
      cases σ with
      | run => cases h
      | oot => rfl
      | abort => rfl
    rw [CS.exec, ht]
    cases (e.den (meaning E)).par
    · exact stop_exec b h
    · exact stop_exec a h
  | .switch e ls, σ, h => by
    have ht : (meaning E).index (e.den (meaning E)) σ = some 0 := by
      cases σ with
      | run => cases h
      | oot => rfl
      | abort => rfl
    rw [exec_switch e ls σ ht]
    refine stop_unbreak (σ := σ) (r := match ls.from (meaning E) (some 0) σ with
        | some r => r
        | none => match ls.from (meaning E) none σ with
          | some r => r
          | none => some (.normal, σ)) ?_
    have h1 := stop_from ls (some 0) h
    cases e1 : ls.from (meaning E) (some 0) σ with
    | some r => exact h1 _ e1
    | none =>
      have h2 := stop_from ls none h
      cases e2 : ls.from (meaning E) none σ with
      | some r => exact h2 _ e2
      | none => exact ⟨_, rfl⟩
  | .brk, σ, h => ⟨_, rfl⟩
  | .ret e, σ, h => ⟨_, rfl⟩
theorem stop_from : ∀ (ls : LS) (z : Option Int) {σ : St}, σ.stopped → ∀ r, ls.from (meaning E) z σ = some r → ∃ o, r = some (o, σ)
  | .nil, z, σ, h, r, hr => by cases hr
  | .cons l s ls, z, σ, h, r, hr => by
    rw [LS.from] at hr
    split at hr
    · cases hr
      obtain ⟨o, ho⟩ := stop_exec s h
      rw [ho]
      cases o with
      | normal => exact stop_all ls h
      | brk => exact ⟨_, rfl⟩
      | ret => exact ⟨_, rfl⟩
    · exact stop_from ls z h r hr
theorem stop_all : ∀ (ls : LS) {σ : St}, σ.stopped → ∃ o, ls.all (meaning E) σ = some (o, σ)
  | .nil, σ, h => ⟨_, rfl⟩
  | .cons l s ls, σ, h => by
    rw [LS.all]
    obtain ⟨o, ho⟩ := stop_exec s h
    rw [ho]
    cases o with
    | normal => exact stop_all ls h
    | brk => exact ⟨_, rfl⟩
    | ret => exact ⟨_, rfl⟩
end

/-- Then-part of a sequence. -/
theorem outOf_seq (r : Option (CPrint.Out Den × St)) {k : St → Option (CPrint.Out Den × St)}
    (hk : ∀ σ : St, σ.stopped → ∃ o, k σ = some (o, σ)) :
    outOf (thenD r k) = match outOf r with
      | .norm l' h' => outOf (k (.run l' h'))
      | o => o := by
  cases r with
  | none => rfl
  | some p =>
    obtain ⟨o, σ⟩ := p
    cases σ with
    | run l h =>
      cases o with
      | normal => rfl
      | brk => rfl
      | ret d =>
        cases d with
        | none => rfl
        | some d =>
          simp only [thenD, outOf]
          cases d.rv l h with
          | none => rfl
          | some r => cases r <;> rfl
    | oot =>
      cases o with
      | normal =>
        obtain ⟨o, ho⟩ := hk .oot trivial
        simp only [thenD, ho]
        cases o <;> rfl
      | brk => rfl
      | ret => rfl
    | abort =>
      cases o with
      | normal =>
        obtain ⟨o, ho⟩ := hk .abort trivial
        simp only [thenD, ho]
        cases o <;> rfl
      | brk => rfl
      | ret => rfl

theorem seq_out (a b : CS) (σ : St) : outOf ((CS.seq a b).exec (meaning E) σ) = match outOf (a.exec (meaning E) σ) with
    | .norm l' h' => outOf (b.exec (meaning E) (.run l' h'))
    | o => o := by
  rw [exec_seq]
  exact outOf_seq _ fun σ hσ => stop_exec (E := E) b hσ

theorem outOf_unbreak (r : Option (CPrint.Out Den × St)) :
    outOf (unbrk r) = unbreak (outOf r) := by
  cases r with
  | none => rfl
  | some p =>
    obtain ⟨o, σ⟩ := p
    cases σ with
    | run l h =>
      cases o with
      | normal => rfl
      | brk => rfl
      | ret d =>
        cases d with
        | none => rfl
        | some d =>
          simp only [outOf, unbrk]
          cases d.rv l h with
          | none => rfl
          | some r => cases r <;> rfl
    | oot => cases o <;> rfl
    | abort => cases o <;> rfl

theorem afterD_out (hN : E.N.Inj) {x : Var} (hx : tOk x) (l : Loc) (o : CGen.Out) :
    outOf ((afterD E (some (E.N.tmp x)) l o).map (CPrint.Out.normal, ·)) = afterCall l x o := by
  cases o with
  | ret c h =>
    simp only [afterD, dtmp_tmp hN, store_tvar hx]
    rfl
  | _ => rfl

theorem assign_out (a b : CE) (l : Loc) (h : Th) : outOf ((CS.assign a b).exec (meaning E) (.run l h)) =
    match (a.den (meaning E)).lv l h, (b.den (meaning E)).rv l h with
    | some o, some r => match store E l h o r with
      | some p => .norm p.1 p.2
      | none => .ub
    | _, _ => .ub := by
  show outOf ((assignD E (a.den (meaning E)) (b.den (meaning E)) (.run l h)).map (CPrint.Out.normal, ·)) = _
  simp only [assignD]
  cases (a.den (meaning E)).lv l h with
  | none => rfl
  | some o =>
    cases (b.den (meaning E)).rv l h with
    | none => rfl
    | some r =>
      simp only
      cases store E l h o r <;> rfl

theorem set_out (hN : E.N.Inj) (x : Var) (b : CE) (l : Loc) (h : Th) : outOf ((CS.set (E.N.tmp x) b).exec (meaning E) (.run l h)) =
    match (b.den (meaning E)).rv l h with
    | some r => match store E l h (.temp x) r with
      | some p => .norm p.1 p.2
      | none => .ub
    | none => .ub := by
  have := assign_out (E := E) (.temp (E.N.tmp x)) b l h
  rw [den_temp hN] at this
  refine Eq.trans (b := outOf ((CS.assign (.temp (E.N.tmp x)) b).exec (meaning E) (.run l h))) ?_ (this.trans ?_)
  · rw [CS.exec, CS.exec]
    rfl
  · cases (b.den (meaning E)).rv l h <;> rfl

theorem exec_assoc (W : World) (call : Nat → Var → List CVal → Th → CGen.Out) (me : Nat) (a b c : CStmt) (l : Loc) (h : Th) :
    CGen.exec W call me (.seq (.seq a b) c) l h = CGen.exec W call me (.seq a (.seq b c)) l h := by
  simp only [CGen.exec]
  cases CGen.exec W call me a l h <;> rfl

/-- Labelled statements, run from the first and from a label, do the same. -/
def SimL (E : Env) (ls : LStmt) (ms : LS) (l : Loc) (h : Th) : Prop :=
  outOf (ms.all (meaning E) (.run l h)) = execL E.W E.call E.me ls l h ∧
    ∀ z : Option Int, (ms.from (meaning E) z (.run l h)).map outOf = match z with
      | some z => execCase E.W E.call E.me z ls l h
      | none => execDefault E.W E.call E.me ls l h

theorem sim_switch {ls : LStmt} {ms : LS} {l : Loc} {h : Th} (hL : SimL E ls ms l h) (z : Int) :
    outOf (unbrk (match ms.from (meaning E) (some z) (.run l h) with
      | some r => r
      | none => match ms.from (meaning E) none (.run l h) with
        | some r => r
        | none => some (.normal, .run l h))) = match execCase E.W E.call E.me z ls l h with
      | some o => unbreak o
      | none => match execDefault E.W E.call E.me ls l h with
        | some o => unbreak o
        | none => .norm l h := by
  have h1 := hL.2 (some z)
  have h2 := hL.2 none
  simp only at h1 h2
  rw [← h1, ← h2, outOf_unbreak]
  cases ms.from (meaning E) (some z) (.run l h) with
  | some r => rfl
  | none => cases ms.from (meaning E) none (.run l h) <;> rfl

mutual
/-- The C syntax of a statement does what the statement does. -/
theorem sim (hN : E.N.Inj) : ∀ {s : CStmt} {c : CS}, El E.N s c → good E.prims s → ∀ (l : Loc) (h : Th),
    outOf (c.exec (meaning E) (.run l h)) = CGen.exec E.W E.call E.me s l h
  | _, _, .skip, _, l, h => rfl
  | .seq a b, .seq c d, .seq h1 h2, g, l, h => by
    rw [good] at g
    rw [seq_out, CGen.exec, sim hN h1 g.1]
    cases CGen.exec E.W E.call E.me a l h with
    | norm l' h' => exact sim hN h2 g.2 l' h'
    | _ => rfl
  | _, _, .assoc h1, g, l, h => by
    rw [exec_assoc]
    refine sim hN h1 ?_ l h
    simp only [good] at g ⊢
    exact ⟨g.1.1, g.1.2, g.2⟩
  | .seq .skip a, c, .skipL h1, g, l, h => by
    simp only [good, true_and] at g
    exact sim hN h1 g l h
  | .set x e, .set _ c, .set _ he, g, l, h => by
    rw [good] at g
    rw [set_out hN, elE_rv hN he g.2, CGen.exec]
    cases evalC E.me l h e with
    | none => rfl
    | some v => simp only [Option.map_some, store_tvar g.1]
  | .setField x n e, .assign _ c, .setField _ _ he, g, l, h => by
    rw [good] at g
    rw [assign_out, elE_rv hN he g.2.2.2, lv_fieldE hN g.1 g.2.1 g.2.2.1, CGen.exec]
    cases l.temps x with
    | none => rfl
    | some a =>
      cases a with
      | ptr a =>
        cases evalC E.me l h e with
        | none => rfl
        | some v =>
          simp only [Option.map_some, store]
          split_ifs <;> rfl
      | _ => cases evalC E.me l h e <;> rfl
  | .setArg i e, .assign _ c, .setArg _ he, g, l, h => by
    rw [good] at g
    rw [assign_out, elE_rv hN he g.2, lv_argE hN g.1, CGen.exec]
    cases l.argsSet
    · cases evalC E.me l h e <;> simp
    · cases evalC E.me l h e with
      | none => rfl
      | some v =>
        simp only [Option.map_some, if_true, store, true_and, Int.natCast_nonneg, Int.toNat_natCast]
        split_ifs <;> rfl
  | .setRoot i e, .assign _ c, .setRoot _ he, g, l, h => by
    rw [good] at g
    rw [assign_out, elE_rv hN he g.2, lv_rootE hN g.1, CGen.exec]
    cases evalC E.me l h e with
    | none => rfl
    | some v =>
      simp only [Option.map_some, store, true_and, Int.natCast_nonneg, Int.toNat_natCast]
      split_ifs <;> rfl
  | .bump n, _, .bump _, g, l, h => by
    rw [good] at g
    rw [set_out hN]
    show (match (binopD .add (CE.den (meaning E) (.temp (E.N.tmp 28))) ((lit n).den (meaning E))).rv l h with
      | some r => match store E l h (.temp 28) r with
        | some p => CGen.Out.norm p.1 p.2
        | none => .ub
      | none => .ub) = _
    rw [den_nat g, den_temp hN]
    simp only [binopD, Den.ofRV, Den.ofLV, Option.bind_some, load, if_true, binopV, store, CGen.exec]
    rw [if_pos (by omega)]
    have : ((l.alloc : Int) + n).toNat = l.alloc + n := by omega
    simp [this]
  | _, _, .loadAlloc, _, l, h => by
    rw [loadAlloc, set_out hN, den_tfield hN]
    simp [Den.ofLV, load, store, CGen.exec]
  | _, _, .loadLimit, _, l, h => by
    rw [loadLimit, set_out hN, den_tfield hN]
    simp [Den.ofLV, load, store, CGen.exec]
  | _, _, .loadArgs, _, l, h => by
    rw [loadArgs, set_out hN, den_tfield hN]
    simp [Den.ofLV, load, store, CGen.exec]
  | _, _, .saveAlloc, _, l, h => by
    rw [saveAlloc, assign_out, den_tfield hN, allocP, den_temp hN]
    simp [Den.ofLV, load, store, CGen.exec]
  | _, _, .saveLimit, _, l, h => by
    rw [saveLimit, assign_out, den_tfield hN, limitP, den_temp hN]
    simp [Den.ofLV, load, store, CGen.exec]
  | _, _, .initStack, _, l, h => by
    rw [initStack, seq_out, assign_out, den_ffield hN, den_roots hN]
    simp only [Den.ofLV, Den.ofRV, store]
    rw [if_pos (by decide)]
    simp only
    rw [seq_out, assign_out, den_ffield hN, den_roots hN]
    simp only [Den.ofLV, Den.ofRV, store]
    rw [if_neg (by decide), if_pos (by decide)]
    simp only
    rw [assign_out, den_ffield hN, den_tfield hN]
    have h1 : ∀ h : Th, load E l h (.tfield 86) = some (.frame h.fp) := fun h => by simp [load]
    have h2 : ∀ (h : Th) o, store E l h (.ffield 89) (.frame o) = some (l, h.setFrame E.me { h.frames E.me with prev := o }) :=
      fun h o => by simp [store]
    simp only [Den.ofLV, Option.bind_some, h1, h2]
    simp only [CGen.exec]
    congr 1
    simp only [Th.setFrame, Int.toNat_zero]
    congr 1
    funext k
    by_cases hk : k = E.me <;> simp [hk]
  | _, _, .setNext n, g, l, h => by
    rw [good] at g
    rw [assign_out, den_ffield hN]
    show (match some (LV.ffield 87), (binopD .add ((roots E.N).den (meaning E)) ((lit n).den (meaning E))).rv l h with
    | some o, some r => match store E l h o r with
      | some p => CGen.Out.norm p.1 p.2
      | none => .ub
    | _, _ => .ub) = _
    rw [den_nat g, den_roots hN]
    simp [binopD, Den.ofRV, binopV, store, CGen.exec]
  | _, _, .link, _, l, h => by
    rw [assign_out, den_tfield hN]
    show (match some (LV.tfield 86), (addrofD E (CE.den (meaning E) (.var (E.N.ext 79)))).rv l h with
    | some o, some r => match store E l h o r with
      | some p => CGen.Out.norm p.1 p.2
      | none => .ub
    | _, _ => .ub) = _
    rw [den_frame hN]
    simp [addrofD, Den.ofRV, Den.ofLV, store, CGen.exec]
  | _, _, .unlink, _, l, h => by
    rw [assign_out, den_tfield hN, den_ffield hN]
    simp [Den.ofLV, load, store, CGen.exec]
  | _, _, .setNalloc n, g, l, h => by
    rw [good] at g
    rw [assign_out, den_tfield hN, den_nat g]
    simp [Den.ofRV, Den.ofLV, store, CGen.exec]
  | _, _, .gc, _, l, h => by
    show outOf ((callD E none (CE.den (meaning E) (.var (E.N.ext 80))) [(tinf E.N).den (meaning E)] (.run l h)).map (CPrint.Out.normal, ·)) = _
    rw [den_gc hN]
    simp only [callD, Den.ofRV, evalAll, rv_tinf hN, CGen.exec]
    cases E.W.gc h <;> rfl
  | .call x f es, .call _ (.cast c _) (_ :: cs), .call _ hf hes, g, l, h => by
    rw [good] at g
    show outOf ((callD E (some (E.N.tmp x)) (castD (c.den (meaning E)) (.ptr (mkFunTy E.N es.length)))
      ((tinf E.N).den (meaning E) :: cs.map (CE.den (meaning E))) (.run l h)).map (CPrint.Out.normal, ·)) = _
    simp only [callD, castD, Den.ofRV, evalAll, rv_tinf hN, CGen.exec, elEs_words hN hes g.2.2, elE_rv hN hf g.2.1]
    cases evalC E.me l h f with
    | none => cases evalCs E.me l h es <;> rfl
    | some v =>
      cases evalCs E.me l h es with
      | none => cases v <;> rfl
      | some vs =>
        have hc : castV (.ptr (mkFunTy E.N es.length)) (.v v) = some (.v v) := rfl
        simp only [Option.map_some, Option.bind_some, hc]
        cases v with
        | fn f =>
          simp only [words_map]
          exact afterD_out hN g.1 _ _
        | _ => rfl
  | .prim x p es, .call _ _ cs, .prim _ _ hes, g, l, h => by
    rw [good] at g
    show outOf ((callD E (some (E.N.tmp x)) (castD (CE.den (meaning E) (.var (E.N.ext p))) (mkPrimTy es.length))
      (cs.map (CE.den (meaning E))) (.run l h)).map (CPrint.Out.normal, ·)) = _
    have hc : castV (mkPrimTy es.length) (.prim p) = some (.prim p) := rfl
    simp only [callD, castD, den_prim hN g.2.1 g.2.2.1, Den.ofRV, CGen.exec, elEs_words hN hes g.2.2.2, Option.bind_some, hc]
    cases evalCs E.me l h es with
    | none => rfl
    | some vs =>
      simp only [Option.map_some, g.2.2.1, words_map]
      cases E.W.prim p vs h.mem with
      | none => rfl
      | some v => exact afterD_out hN g.1 _ _
  | .primT x p es, .call _ _ (_ :: cs), .primT _ _ hes, g, l, h => by
    rw [good] at g
    show outOf ((callD E (some (E.N.tmp x)) (castD (CE.den (meaning E) (.var (E.N.ext p))) (mkFunTy E.N es.length))
      ((tinf E.N).den (meaning E) :: cs.map (CE.den (meaning E))) (.run l h)).map (CPrint.Out.normal, ·)) = _
    have hc : castV (mkFunTy E.N es.length) (.prim p) = some (.prim p) := rfl
    simp only [callD, castD, den_prim hN g.2.1 g.2.2.1, Den.ofRV, evalAll, rv_tinf hN, CGen.exec, elEs_words hN hes g.2.2.2,
      Option.bind_some, hc]
    cases evalCs E.me l h es with
    | none => rfl
    | some vs =>
      simp only [Option.map_some, g.2.2.1, words_map]
      exact afterD_out hN g.1 _ _
  | .ifLow n s, .ite _ c _, .ifLow _ hs, g, l, h => by
    rw [good] at g
    have ht : (meaning E).truth (CE.den (meaning E) (.unop .notbool (.binop .le (lit n) (.binop .sub (limitP E.N) (allocP E.N))))) (.run l h) =
        some (decide ¬ (n : Int) ≤ (l.limit : Int) - l.alloc) := by
      show truthV ((unopD .notbool (binopD .le ((lit n).den (meaning E)) (binopD .sub (CE.den (meaning E) (.temp (E.N.tmp 29)))
        (CE.den (meaning E) (.temp (E.N.tmp 28)))))).rv l h) = _
      rw [den_nat g.1, den_temp hN, den_temp hN]
      simp only [unopD, binopD, Den.ofRV, Den.ofLV, Option.bind_some, load, binopV, unopV]
      by_cases hn : (n : Int) ≤ (l.limit : Int) - l.alloc <;> simp [hn, truthV, binopV, unopV]
    rw [CS.exec, ht, CGen.exec]
    by_cases hn : (n : Int) ≤ (l.limit : Int) - l.alloc
    · simp only [hn, not_true_eq_false, decide_false, if_true]
      rfl
    · simp only [hn, not_false_eq_true, decide_true, if_false]
      exact sim hN hs g.2 l h
  | .ifPtr x a b, .ite _ c d, .ifPtr _ ha hb, g, l, h => by
    rw [good] at g
    have ht : (meaning E).truth ((isPtr E.N x).den (meaning E)) (.run l h) = match l.temps x with
        | some (.ptr _) => some true
        | some (.int z) => some (decide (z % 2 = 0))
        | _ => none := by
      show truthV ((binopD .eq (binopD .and ((tvar E.N x).den (meaning E)) (.ofRV fun _ _ => some (.v (.int (constVal 32 1 false)))))
        (.ofRV fun _ _ => some (.v (.int (constVal 32 0 false))))).rv l h) = _
      simp only [binopD, Den.ofRV, rv_tvar hN g.1]
      have h1 : constVal 32 1 false = 1 := by decide
      have h0 : constVal 32 0 false = 0 := by decide
      rw [h1, h0]
      cases l.temps x with
      | none => rfl
      | some v =>
        cases v with
        | int z =>
          have : maskOf z 1 = some (z % 2) := by
            rw [maskOf, if_pos (by decide)]
            rfl
          simp only [Option.map_some, binopV, this]
          by_cases hz : z % 2 = 0 <;> simp [hz, truthV, binopV]
        | ptr a => rfl
        | _ => rfl
    rw [CS.exec, ht, CGen.exec]
    cases l.temps x with
    | none => rfl
    | some v =>
      cases v with
      | int z =>
        by_cases hz : z % 2 = 0
        · simp only [hz, decide_true, if_true]
          exact sim hN ha g.2.1 l h
        · simp only [hz, decide_false, if_false]
          exact sim hN hb g.2.2 l h
      | ptr a => exact sim hN ha g.2.1 l h
      | _ => rfl
  | .switchTag x ls, .switch _ ms, .switchTag _ hls, g, l, h => by
    rw [good] at g
    have ht : (meaning E).index (CE.den (meaning E) (.binop .and (fieldE E.N x (-1)) (lit 255))) (.run l h) =
        match evalC E.me l h (.field x (-1)) with
        | some (.int z) => some (z % 256)
        | _ => none := by
      have h1 : ((fieldE E.N x (-1)).den (meaning E)).rv l h = (evalC E.me l h (.field x (-1))).map .v :=
        elE_rv hN (.field x (-1)) ⟨g.1, by decide, by decide⟩ l h
      show (match (binopD .and ((fieldE E.N x (-1)).den (meaning E)) ((lit 255).den (meaning E))).rv l h with
        | some (.v (.int z)) => some z
        | _ => none) = _
      rw [den_lit (by decide) (by decide)]
      simp only [binopD, Den.ofRV, h1]
      cases evalC E.me l h (.field x (-1)) with
      | none => rfl
      | some v =>
        cases v with
        | int z =>
          have : maskOf z 255 = some (z % 256) := by
            rw [maskOf, if_pos (by decide)]
            rfl
          simp [binopV, this]
        | _ => rfl
    have hL := simL hN hls g.2 l h
    rw [exec_switch _ _ _ ht, CGen.exec]
    cases evalC E.me l h (.field x (-1)) with
    | none => rfl
    | some v =>
      cases v with
      | int z => exact sim_switch hL (z % 256)
      | _ => rfl
  | .switchOrd x ls, .switch _ ms, .switchOrd _ hls, g, l, h => by
    rw [good] at g
    have ht : (meaning E).index (CE.den (meaning E) (.binop .shr (tvar E.N x) (lit 1))) (.run l h) =
        match l.temps x with
        | some (.int z) => some (z / 2)
        | _ => none := by
      show (match (binopD .shr ((tvar E.N x).den (meaning E)) ((lit 1).den (meaning E))).rv l h with
        | some (.v (.int z)) => some z
        | _ => none) = _
      rw [den_lit (by decide) (by decide)]
      simp only [binopD, Den.ofRV, rv_tvar hN g.1]
      cases l.temps x with
      | none => rfl
      | some v =>
        cases v with
        | int z => simp [binopV]
        | _ => rfl
    have hL := simL hN hls g.2 l h
    rw [exec_switch _ _ _ ht, CGen.exec]
    cases l.temps x with
    | none => rfl
    | some v =>
      cases v with
      | int z => exact sim_switch hL (z / 2)
      | _ => rfl
  | _, _, .brk, _, l, h => rfl
  | .ret e, .ret (some c), .ret he, g, l, h => by
    rw [good] at g
    show (match (c.den (meaning E)).rv l h with
      | some (.v c) => CGen.Out.ret c h
      | _ => .ub) = _
    rw [elE_rv hN he g, CGen.exec]
    cases evalC E.me l h e <;> rfl
/-- The same for labelled statements: run from the first, and from a label. -/
theorem simL (hN : E.N.Inj) : ∀ {ls : LStmt} {ms : LS}, ElL E.N ls ms → goodL E.prims ls → ∀ (l : Loc) (h : Th),
    SimL E ls ms l h
  | _, _, .nil, _, l, h => ⟨rfl, fun z => by cases z <;> rfl⟩
  | .cons lab (.seq s .brk) ls, .cons _ (.seq c .brk) ms, .cons _ hs hls, g, l, h => by
    rw [goodL, good] at g
    have hL := simL hN hls g.2
    have h0 : outOf ((CS.seq c .brk).exec (meaning E) (.run l h)) = CGen.exec E.W E.call E.me (.seq s .brk) l h := by
      rw [seq_out, CGen.exec, sim hN hs g.1.1]
      cases CGen.exec E.W E.call E.me s l h <;> rfl
    have h1 : outOf (thenD ((CS.seq c .brk).exec (meaning E) (.run l h)) (ms.all (meaning E))) = match CGen.exec E.W E.call E.me (.seq s .brk) l h with
        | .norm l' h' => execL E.W E.call E.me ls l' h'
        | o => o := by
      rw [outOf_seq _ fun σ hσ => stop_all (E := E) ms hσ, h0]
      cases CGen.exec E.W E.call E.me (.seq s .brk) l h with
      | norm l' h' => exact (hL l' h').1
      | _ => rfl
    refine ⟨by rw [all_cons, execL]; exact h1, fun z => ?_⟩
    rw [from_cons]
    cases z with
    | none =>
      show _ = execDefault E.W E.call E.me (.cons lab (.seq s .brk) ls) l h
      rw [execDefault]
      by_cases hl : lab = none
      · rw [if_pos hl, if_pos hl, Option.map_some, h1]; cases CGen.exec E.W E.call E.me (.seq s .brk) l h <;> rfl
      · rw [if_neg hl, if_neg hl]
        exact (hL l h).2 none
    | some z =>
      show _ = execCase E.W E.call E.me z (.cons lab (.seq s .brk) ls) l h
      rw [execCase]
      by_cases hl : lab = some z
      · rw [if_pos hl, if_pos hl, Option.map_some, h1]; cases CGen.exec E.W E.call E.me (.seq s .brk) l h <;> rfl
      · rw [if_neg hl, if_neg hl]
        exact (hL l h).2 (some z)
end

end CGen.Text
