import Verif.Box.Back
import Verif.Box.Typed
import Verif.Src.Props
import Verif.Conv.Props

/-!
# C54: erased programs and the first intermediate language compute the same
-/

namespace Box

open Mut (Name Wcbv Defined CrctEnv)
open Src (Data)

variable {I : Inds} {E : Ctx}

/-! ## Specification -/

/-- What the front end is handed: no constructor parameters, well-formed declarations, a closed well-formed term. -/
structure Program (I : Inds) (E : Ctx) (t : Term) : Prop where
  pars : NoPars I
  decls : WfCtx I E
  main : t.wf I E 0

mutual
/-- First-order data as an erased term. -/
def ofData : Data → Term
  | .con i n ds => .con i n (ofDatas ds)
  | .prim p => .prim p
  | .box => .box
/-- The same for lists. -/
def ofDatas : List Data → Terms
  | [] => .nil
  | d :: ds => .cons (ofData d) (ofDatas ds)
end

/-- Every constant evaluates, using the constants before it. -/
def ConstsEval (I : Inds) : Ctx → Prop
  | [] => True
  | (_, .constant (some t)) :: E => ConstsEval I E ∧ ∃ v, Eval I E t v
  | (_, _) :: E => ConstsEval I E

/-! ## Data -/

mutual
theorem compile_ofData : ∀ d : Data, compile (ofData d) = d.toTerm
  | .con i n ds => by simp only [ofData, compile, Data.toTerm]; rw [compiles_ofDatas ds]
  | .prim p => rfl
  | .box => rfl
theorem compiles_ofDatas : ∀ ds : List Data, compiles (ofDatas ds) = Data.toTerms ds
  | [] => rfl
  | d :: ds => by simp only [ofDatas, compiles, Data.toTerms]; rw [compile_ofData d, compiles_ofDatas ds]
end

mutual
theorem ofData_of_compile : ∀ (d : Data) (t : Term), compile t = d.toTerm → t = ofData d
  | .con i n ds, t, h => by
    obtain ⟨ts, rfl, e⟩ := compile_con_inv (i := i) (n := n) (ts := Data.toTerms ds) (h.trans (by simp only [Data.toTerm]))
    simp only [ofData]; rw [ofDatas_of_compiles ds ts e.symm]
  | .prim p, t, h => by cases t <;> simp_all [compile, Data.toTerm, ofData]
  | .box, t, h => compile_proof_inv h
theorem ofDatas_of_compiles : ∀ (ds : List Data) (ts : Terms), compiles ts = Data.toTerms ds → ts = ofDatas ds
  | [], .nil, _ => rfl
  | [], .cons _ _, h => by simp [compiles, Data.toTerms] at h
  | d :: ds, .nil, h => by simp [compiles, Data.toTerms] at h
  | d :: ds, .cons t ts, h => by
    simp only [compiles, Data.toTerms, Mut.Terms.cons.injEq] at h
    simp only [ofDatas]; rw [ofData_of_compile d t h.1, ofDatas_of_compiles ds ts h.2]
end

/-! ## C54 -/

/-- The converted program satisfies the well-formedness the later phases assume. -/
theorem C54_wf {t : Term} (h : Program I E t) :
    CrctEnv (compileCtx E) ∧ (compile t).crct (Defined (compileCtx E)) 0 :=
  ⟨compileCtx_crct h.decls, compile_crct t h.main⟩

/-- A value of the erased program, converted, is the value of the converted program. -/
theorem C54_sound {t v : Term} (h : Program I E t) (hv : Eval I E t v) :
    Wcbv (compileCtx E) (compile t) (compile v) := (hv.sim h.pars h.decls h.main).2

/-- The converted program has no other value. -/
theorem C54_only_value {t v : Term} {s : Mut.Term} (h : Program I E t) (hv : Eval I E t v)
    (hs : Wcbv (compileCtx E) (compile t) s) : s = compile v := hs.det (C54_sound h hv)

/-- If the converted program has a value, so has the erased program, and it is that one; unless evaluation of the erased
program is stuck at a delayed computation used as a function, a function used as a delayed computation, or a match on a
proof. -/
theorem C54_reflects {t : Term} {s : Mut.Term} (h : Program I E t) (hs : Wcbv (compileCtx E) (compile t) s) :
    (∃ v, Eval I E t v ∧ s = compile v) ∨ Confuses I E t := by
  obtain ⟨n, hn⟩ := Mut.Wcbv.iffN.1 hs
  exact (compile_back h.pars h.decls n).1 t s h.main hn

/-- Those programs are stuck: they have no value in the source. -/
theorem C54_confused_stuck {t v : Term} (h : Confuses I E t) : ¬ Eval I E t v := h.stuck v

/-- Programs without delayed computations and without propositional types are never confused. -/
theorem C54_strict {t : Term} (hE : StrictCtx E) (hI : NoProps I) (ht : t.strict) : ¬ Confuses I E t :=
  fun h => h.not_strict hE hI ht

/-- First-order results are the same on both sides. -/
theorem C54_data {t : Term} (h : Program I E t) (hc : ¬ Confuses I E t) (d : Data) :
    Wcbv (compileCtx E) (compile t) d.toTerm ↔ Eval I E t (ofData d) := by
  constructor
  · intro hs
    rcases C54_reflects h hs with ⟨v, hv, e⟩ | hc'
    · rwa [ofData_of_compile d v e.symm] at hv
    · exact absurd hc' hc
  · intro hv; rw [← compile_ofData]; exact C54_sound h hv

/-- The converted program terminates exactly when the erased program does. -/
theorem C54_terminates {t : Term} (h : Program I E t) (hc : ¬ Confuses I E t) :
    (∃ s, Wcbv (compileCtx E) (compile t) s) ↔ ∃ v, Eval I E t v := by
  constructor
  · rintro ⟨s, hs⟩
    rcases C54_reflects h hs with ⟨v, hv, _⟩ | hc'
    · exact ⟨v, hv⟩
    · exact absurd hc' hc
  · rintro ⟨v, hv⟩; exact ⟨_, C54_sound h hv⟩

/-- Evaluation of erased programs is a function. -/
theorem C54_deterministic {t v w : Term} (h₁ : Eval I E t v) (h₂ : Eval I E t w) : v = w := h₁.det h₂

/-- A value of a well-formed program is well formed: reduction never meets a construct the compiler rejects. -/
theorem C54_value_wf {t v : Term} (h : Program I E t) (hv : Eval I E t v) : v.wf I E 0 := (hv.sim h.pars h.decls h.main).1

/-- Constants that evaluate in the erased program evaluate in the converted one. -/
theorem C54_constants (hI : NoPars I) : ∀ {E : Ctx}, WfCtx I E → ConstsEval I E → Mut.ConstsEval (compileCtx E)
  | [], _, _ => trivial
  | (c, .constant (some t)) :: E, h, hc => by
    simp only [WfCtx, ConstsEval] at h hc
    obtain ⟨v, hv⟩ := hc.2
    exact ⟨C54_constants hI h.1 hc.1, _, (hv.sim hI h.1 h.2.2).2⟩
  | (c, .constant none) :: E, h, _ => by simp [WfCtx] at h
  | (c, .inductives) :: E, h, hc => by
    simp only [WfCtx, ConstsEval] at h hc
    simp only [compileCtx, compileDecl, Mut.ConstsEval]
    exact C54_constants hI h.1 hc

/-- Applications are converted argument by argument, from whatever head (the source converts a head with its arguments). -/
theorem C54_spine (f : Term) (ts : Terms) : compile (mkApps f ts) = TmkApps (compile f) (compiles ts) := by
  induction ts using Terms.ind generalizing f with
  | h0 => rfl
  | h1 t ts ih => exact ih (.app f t)

/-- A delayed computation that is forced computes what it delays. -/
theorem C54_force_lazy {t : Term} {s : Mut.Term} (h : Wcbv (compileCtx E) (compile t) s) :
    Wcbv (compileCtx E) (compile (.force (.lazy t))) s :=
  .appLam (.lam _) .proof (by rw [inst_lift_same]; exact h)

/-- The converted and linked program uses constructors as declared, which is what the conversion to LambdaANF asks. -/
theorem C54_typed {T : Conv.Types} {t : Term} (h : Program I E t) (hT : Agree I T) (ha : t.arities I) (hE : AritiesCtx I E)
    (P : List (Name × Nat)) : Conv.Typed T (Src.translateProgram P (compileCtx E) (compile t)) :=
  mkLets_typed _ _ (translateEnv_typed h.pars hT P h.decls hE) (trans_typed _ _ _ _ (compile_typed h.pars hT t h.main ha))

/-- An erased program and what the linked program computes: all of the front end in one statement. -/
theorem C54_linked {t : Term} (h : Program I E t) (hce : ConstsEval I E) {P : List (Name × Nat)}
    (hP : ∀ c, Defined (compileCtx E) c → Src.findPrim P c = none) (hc : ¬ Confuses I E t) (d : Data) :
    Src.Eval (Src.translateProgram P (compileCtx E) (compile t)) d.toExp ↔ Eval I E t (ofData d) := by
  rw [Src.C32_data (C54_wf h).1 hP (C54_wf h).2 d, C54_data h hc d]
  exact ⟨fun h => h.2, fun hv => ⟨C54_constants h.pars h.decls hce, hv⟩⟩

/-! ## The statements are about real programs -/

/-- The natural numbers. -/
def natInds : Inds := fun i => if i = 0 then some ⟨false, 0, [0, 1]⟩ else none

theorem natInds_pars : NoPars natInds := by
  intro i d h; simp only [natInds] at h; split at h <;> simp_all; rw [← h]

theorem natInds_props : NoProps natInds := by
  intro i d h; simp only [natInds] at h; split at h <;> simp_all; rw [← h]

/-- `Fixpoint double n := match n with O => O | S m => S (S (double m)) end.` -/
def double : Term :=
  .fix (.cons (.lam (.case 0 0 (.rel 0) (.cons 0 (.con 0 0 .nil) (.cons 1
    (.con 0 1 (.cons (.con 0 1 (.cons (.app (.rel 2) (.rel 0)) .nil)) .nil)) .nil)))) .nil) 0

/-- The constant `double`, after the declaration of `nat`. -/
def sampleCtx : Ctx := [(1, .constant (some double)), (0, .inductives)]

/-- `let z := lazy (double (S O)) in S (force z)`. -/
def sample : Term :=
  .letin (.lazy (.app (.const 1) (.con 0 1 (.cons (.con 0 0 .nil) .nil)))) (.con 0 1 (.cons (.force (.rel 0)) .nil))

/-- `S (S (S O))`. -/
def three : Data := .con 0 1 [.con 0 1 [.con 0 1 [.con 0 0 []]]]

theorem zero_ctor : lookupCtor natInds 0 0 = some (false, 0, 0) := rfl
theorem succ_ctor : lookupCtor natInds 0 1 = some (false, 0, 1) := rfl

theorem double_wf (E : Ctx) : double.wf natInds E 0 := by
  simp [double, Term.wf, Terms.wf, Brs.wf, Defs.wf, Terms.len, Brs.len, Defs.len, zero_ctor, succ_ctor, natInds]

theorem sample_program : Program natInds sampleCtx sample :=
  ⟨natInds_pars, by simp [sampleCtx, WfCtx, lookup, double_wf],
    by simp [sample, sampleCtx, Term.wf, Terms.wf, Terms.len, lookup, zero_ctor, succ_ctor]⟩

theorem eval_zero : Eval natInds sampleCtx (.con 0 0 .nil) (.con 0 0 .nil) := .con zero_ctor rfl .nil

theorem double_zero : Eval natInds sampleCtx (.app double (.con 0 0 .nil)) (.con 0 0 .nil) :=
  .fix (.fixAtom _ _) rfl eval_zero
    (.beta (.lam _) eval_zero (.iota (m := 0) (b := .con 0 0 .nil) eval_zero zero_ctor rfl rfl rfl eval_zero))

theorem eval_one : Eval natInds sampleCtx (.con 0 1 (.cons (.con 0 0 .nil) .nil)) (.con 0 1 (.cons (.con 0 0 .nil) .nil)) :=
  .con succ_ctor rfl (.cons eval_zero .nil)

theorem double_one : Eval natInds sampleCtx (.app (.const 1) (.con 0 1 (.cons (.con 0 0 .nil) .nil)))
    (ofData (.con 0 1 [.con 0 1 [.con 0 0 []]])) :=
  .fix (.delta rfl (.fixAtom _ _)) rfl eval_one
    (.beta (.lam _) eval_one (.iota (m := 1) eval_one succ_ctor rfl rfl rfl
      (.con succ_ctor rfl (.cons (.con succ_ctor rfl (.cons double_zero .nil)) .nil))))

theorem sample_value : Eval natInds sampleCtx sample (ofData three) :=
  .zeta (.lazy _) (.con succ_ctor rfl (.cons (.force (.lazy _) double_one) .nil))

/-- Doubling, delaying and forcing survive the conversion. -/
example : Wcbv (compileCtx sampleCtx) (compile sample) three.toTerm := by
  have hc : ¬ Confuses natInds sampleCtx sample := fun h => h.stuck _ sample_value
  exact (C54_data sample_program hc three).2 sample_value

example : ConstsEval natInds sampleCtx := ⟨trivial, _, .fixAtom _ _⟩

theorem sample_typed : sample.arities natInds ∧ AritiesCtx natInds sampleCtx ∧ Agree natInds Conv.natTypes := by
  refine ⟨by simp [sample, Term.arities, Terms.arities], ⟨trivial, ?_⟩, ?_⟩
  · simp only [double, Term.arities, Defs.arities, Brs.arities, Terms.arities, and_true, true_and]
    intro n m b h
    match n, h with
    | 0, h => cases h; exact ⟨_, _, zero_ctor⟩
    | 1, h => cases h; exact ⟨_, _, succ_ctor⟩
    | n + 2, h => simp [Brs.nth] at h
  · intro i n p pars a h
    simp only [lookupCtor, natInds] at h
    split at h
    · rename_i d hd
      split at hd
      · rename_i hi
        subst hi
        cases hd
        match n, h with
        | 0, h => cases h; exact Conv.nat_zero
        | 1, h => cases h; exact Conv.nat_succ
        | n + 2, h => simp at h
      · cases hd
    · cases h

/-- A constructor block compiles to a constructor block, so that a strict program is covered with no side condition. -/
example : ¬ Confuses natInds sampleCtx (.app (.const 1) (.con 0 1 (.cons (.con 0 0 .nil) .nil))) := by
  refine C54_strict (fun c t h => ?_) natInds_props (by simp [Term.strict, Terms.strict])
  simp only [sampleCtx, lookup] at h
  split at h
  · cases h; simp [double, Term.strict, Defs.strict, Brs.strict, Terms.strict]
  · split at h <;> simp at h

/-- Without the side condition the converse fails: forcing a function is stuck in the source and runs in the target. -/
theorem C54_forced_function_refuted : ∃ (I : Inds) (E : Ctx) (t : Term) (s : Mut.Term), Program I E t ∧
    Wcbv (compileCtx E) (compile t) s ∧ ¬ ∃ v, Eval I E t v := by
  refine ⟨natInds, [], .force (.lam (.rel 0)), .proof, ⟨natInds_pars, trivial, by simp [Term.wf]⟩,
    .appLam (.lam _) .proof .proof, ?_⟩
  rintro ⟨v, hv⟩
  cases hv with
  | force h => cases h

/-- So does applying a delayed computation. -/
theorem C54_applied_lazy_refuted : ∃ (I : Inds) (E : Ctx) (t : Term) (s : Mut.Term), Program I E t ∧
    Wcbv (compileCtx E) (compile t) s ∧ ¬ ∃ v, Eval I E t v := by
  refine ⟨natInds, [], .app (.lazy .box) .box, .proof, ⟨natInds_pars, trivial, by simp [Term.wf]⟩,
    .appLam (.lam _) .proof .proof, ?_⟩
  rintro ⟨v, hv⟩
  exact (Confuses.appLazy (.lazy _) .box).stuck v hv

end Box
