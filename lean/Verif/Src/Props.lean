import Verif.Src.LinkEnv

/-!
# Properties of the source languages: evaluators (C33, C47) and linking of constants (C32)
-/

namespace Src

open Mut (Term Terms Name Environ Entry Wcbv Wcbvs Defined CrctEnv ConstsEval lookup lookupDfn)

/-! ## C33: LambdaBoxLocal evaluation -/

/-- An expression has at most one value. -/
theorem C33_deterministic {e v w : Exp} (h₁ : Eval e v) (h₂ : Eval e w) : v = w := h₁.det h₂

/-- The fuelled interpreter returns exactly the values of the relation. -/
theorem C33_interpreter_exact {e v : Exp} : Eval e v ↔ ∃ n, evalN n e = some v := Eval.iffN

/-- More fuel never changes the answer. -/
theorem C33_more_fuel {n m : Nat} {e v : Exp} (hnm : n ≤ m) (h : evalN n e = some v) : evalN m e = some v :=
  evalN_mono hnm h

/-- Values are final. -/
theorem C33_values_final {e v : Exp} (h : Eval e v) : Eval v v := h.idem

/-- Closed programs have closed values. -/
theorem C33_closed {e v : Exp} (he : e.wf 0) (h : Eval e v) : v.wf 0 := h.wf he

/-- Recursive doubling of unary numbers: constructors `(0, 0)` and `(0, 1)`. -/
def dbl : Exp :=
  .fix (.cons (.lam (.mtch (.var 0)
    (.cons (0, 0) 0 (.con (0, 0) .nil)
    (.cons (0, 1) 1 (.con (0, 1) (.cons (.con (0, 1) (.cons (.app (.var 2) (.var 0)) .nil)) .nil)) .nil)))) .nil) 0

/-- Unary numbers. -/
def num : Nat → Exp
  | 0 => .con (0, 0) .nil
  | n + 1 => .con (0, 1) (.cons (num n) .nil)

example : Eval (.app dbl (num 2)) (num 4) := C33_interpreter_exact.2 ⟨20, by decide +kernel⟩
example : evalN 5 (.app dbl (num 2)) = none := by decide +kernel
example : (Exp.app dbl (num 2)).wf 0 := by simp [Exp.wf, Fns.wf, Brs.wf, Exps.wf, dbl, num, Fns.len]

/-! ## C47: LambdaBoxMut evaluation -/

/-- A term has at most one value. -/
theorem C47_deterministic {p : Environ} {t u v : Term} (h₁ : Wcbv p t u) (h₂ : Wcbv p t v) : u = v := h₁.det h₂

/-- A value evaluates to itself, and only to itself. -/
theorem C47_values_final {p : Environ} {t v w : Term} (h : Wcbv p t v) : Wcbv p v w ↔ w = v :=
  ⟨fun h' => h'.det h.value.2, fun e => e ▸ h.value.2⟩

/-- A value is a function, a constructor, a proof or a primitive: evaluation never returns a stuck application,
although the relation has a rule for it. -/
theorem C47_never_stuck_application {p : Environ} {t v : Term} (h : Wcbv p t v) :
    (∃ b, v = .lam b) ∨ (∃ ds m, v = .fix ds m) ∨ (∃ i n ts, v = .con i n ts) ∨ v = .proof ∨ ∃ q, v = .prim q := by
  have := h.value.1
  cases v <;> simp_all [Term.head]

/-- The evaluator returns exactly the values of the relation (`wcbvEval_WcbvEval` is admitted in wcbvEval.v). -/
theorem C47_interpreter_exact {p : Environ} {t v : Term} : Wcbv p t v ↔ ∃ n, Mut.wcbvN p n t = some v := Mut.Wcbv.iffN

/-- More fuel never changes the answer. -/
theorem C47_more_fuel {p : Environ} {n m : Nat} {t v : Term} (hnm : n ≤ m) (h : Mut.wcbvN p n t = some v) :
    Mut.wcbvN p m t = some v := Mut.wcbvN_mono hnm h

/-! ## C32: linking -/

mutual
/-- Data as a LambdaBoxMut term. -/
def Data.toTerm : Data → Term
  | .con i n ds => .con i n (Data.toTerms ds)
  | .prim p => .prim p
  | .box => .proof
/-- The same for lists. -/
def Data.toTerms : List Data → Terms
  | [] => .nil
  | d :: ds => .cons d.toTerm (Data.toTerms ds)
end

mutual
/-- Data as a LambdaBoxLocal expression. -/
def Data.toExp : Data → Exp
  | .con i n ds => .con (i, n) (Data.toExps ds)
  | .prim p => .pval p
  | .box => .prf
/-- The same for lists. -/
def Data.toExps : List Data → Exps
  | [] => .nil
  | d :: ds => .cons d.toExp (Data.toExps ds)
end

mutual
/-- A value of LambdaBoxMut and a value of LambdaBoxLocal look the same: equal constructors, primitives and proofs; a
function for a function, with the same position in its bundle if it is recursive. -/
inductive Same : Term → Exp → Prop
  | con {i n ts es} : Sames ts es → Same (.con i n ts) (.con (i, n) es)
  | prim {p} : Same (.prim p) (.pval p)
  | proof : Same .proof .prf
  | lam {t e} : Same (.lam t) (.lam e)
  | fix {ds fs n} : ds.len = fs.len → Same (.fix ds n) (.fix fs n)
/-- The same for argument lists. -/
inductive Sames : Terms → Exps → Prop
  | nil : Sames .nil .nil
  | cons {t ts e es} : Same t e → Sames ts es → Sames (.cons t ts) (.cons e es)
end

mutual
theorem Same.of_value {p σ} : ∀ {s : Term}, s.head = true → Wcbv p s s → Same s (trS σ s)
  | .con i n ts, _, h => by
    simp only [trS]
    cases h with | con h => exact .con (Sames.of_value h)
  | .prim _, _, _ => .prim
  | .proof, _, _ => .proof
  | .lam _, _, _ => .lam
  | .fix _ _, _, _ => .fix (by rw [trSD_len])
  | .rel _, h, _ => by simp [Term.head] at h
  | .letin _ _, h, _ => by simp [Term.head] at h
  | .app _ _, h, _ => by simp [Term.head] at h
  | .const _, h, _ => by simp [Term.head] at h
  | .case _ _ _, h, _ => by simp [Term.head] at h
  | .wrong, h, _ => by simp [Term.head] at h
theorem Sames.of_value {p σ} : ∀ {s : Terms}, Wcbvs p s s → Sames s (trSs σ s)
  | .nil, _ => .nil
  | .cons t ts, h => by
    simp only [trSs]
    cases h with | cons h1 h2 => exact .cons (Same.of_value h1.value.1 h1) (Sames.of_value h2)
end

mutual
theorem trS_data (σ : Name → Exp) : ∀ d : Data, trS σ d.toTerm = d.toExp
  | .con i n ds => by simp only [Data.toTerm, Data.toExp, trS, trS_datas σ ds]
  | .prim _ => rfl
  | .box => rfl
theorem trS_datas (σ : Name → Exp) : ∀ ds : List Data, trSs σ (Data.toTerms ds) = Data.toExps ds
  | [] => rfl
  | d :: ds => by simp only [Data.toTerms, Data.toExps, trSs, trS_data σ d, trS_datas σ ds]
end

mutual
theorem Same.data : ∀ {d : Data} {s}, Same s d.toExp → s = d.toTerm
  | .con i n ds, s, h => by
    simp only [Data.toExp] at h; cases h with | con h => simp only [Data.toTerm, Sames.data h]
  | .prim _, s, h => by simp only [Data.toExp] at h; cases h; rfl
  | .box, s, h => by simp only [Data.toExp] at h; cases h; rfl
theorem Sames.data : ∀ {ds : List Data} {s}, Sames s (Data.toExps ds) → s = Data.toTerms ds
  | [], s, h => by simp only [Data.toExps] at h; cases h; rfl
  | d :: ds, s, h => by
    simp only [Data.toExps] at h; cases h with | cons h1 h2 => simp only [Data.toTerms, Same.data h1, Sames.data h2]
end

/-- The linked program computes nothing but the value of the main term in its environment. -/
theorem C32_linked_value {P} {p : Environ} (hp : CrctEnv p) (hP : ∀ c, Defined p c → findPrim P c = none) {t : Term}
    (ht : t.crct (Defined p) 0) {v : Exp} (h : Eval (translateProgram P p t) v) :
    ∃ s, Wcbv p t s ∧ Same s v := by
  obtain ⟨_, s, hs, vs, _, rfl⟩ := (link_iff hp hP ht).1 h
  exact ⟨s, hs, Same.of_value hs.value.1 hs.value.2⟩

/-- The linked program computes the value of the main term, provided the body of every constant evaluates.  The
property as stated has no such proviso; without it the statement is false (`C32_unused_constant_refuted`). -/
theorem C32_link_partial {P} {p : Environ} (hp : CrctEnv p) (hP : ∀ c, Defined p c → findPrim P c = none) {t s : Term}
    (ht : t.crct (Defined p) 0) (hc : ConstsEval p) (h : Wcbv p t s) :
    ∃ v, Eval (translateProgram P p t) v ∧ Same s v := by
  obtain ⟨vs, hE⟩ := (evalEnv_iff hp hP).2 hc
  exact ⟨_, (link_iff hp hP ht).2 ⟨hc, s, h, vs, hE, rfl⟩, Same.of_value h.value.1 h.value.2⟩

/-- First-order results are the same on both sides, in both directions. -/
theorem C32_data {P} {p : Environ} (hp : CrctEnv p) (hP : ∀ c, Defined p c → findPrim P c = none) {t : Term}
    (ht : t.crct (Defined p) 0) (d : Data) :
    Eval (translateProgram P p t) d.toExp ↔ ConstsEval p ∧ Wcbv p t d.toTerm := by
  rw [link_iff hp hP ht]
  constructor
  · rintro ⟨hc, s, hs, vs, hE, e⟩
    have := Same.of_value (σ := valOf (translateEnv P p) vs) hs.value.1 hs.value.2
    rw [← e] at this
    exact ⟨hc, this.data ▸ hs⟩
  · rintro ⟨hc, h⟩
    obtain ⟨vs, hE⟩ := (evalEnv_iff hp hP).2 hc
    exact ⟨hc, _, h, vs, hE, (trS_data _ d).symm⟩

/-- The linked program has a value exactly when the main term and every constant of the environment, used or not, have
one. -/
theorem C32_terminates_iff {P} {p : Environ} (hp : CrctEnv p) (hP : ∀ c, Defined p c → findPrim P c = none) {t : Term}
    (ht : t.crct (Defined p) 0) :
    (∃ v, Eval (translateProgram P p t) v) ↔ ConstsEval p ∧ ∃ s, Wcbv p t s := by
  constructor
  · rintro ⟨v, h⟩
    obtain ⟨hc, s, hs, _⟩ := (link_iff hp hP ht).1 h
    exact ⟨hc, s, hs⟩
  · rintro ⟨hc, s, hs⟩
    obtain ⟨v, hv, _⟩ := C32_link_partial hp hP ht hc hs
    exact ⟨v, hv⟩

theorem mkLets_wf : ∀ {E : LEnv} {t : Exp}, LEnv.wf E → t.wf E.length → (mkLets E t).wf 0
  | [], _, _, h => h
  | (_, e) :: E, t, hE, h => by
    simp only [LEnv.wf] at hE
    show (mkLets E (.letin e t)).wf 0
    refine mkLets_wf hE.2 ?_
    simp only [Exp.wf]
    refine ⟨hE.1, ?_⟩
    rw [Nat.add_comm]; exact h

/-- The linked program is closed and well formed. -/
theorem C32_closed {P} {p : Environ} (hp : CrctEnv p) (hP : ∀ c, Defined p c → findPrim P c = none) {t : Term}
    (ht : t.crct (Defined p) 0) : (translateProgram P p t).wf 0 := by
  refine mkLets_wf (translateEnv_wf hp hP) ?_
  exact trans_wf hP (fun c hc => defined_offset hp c hc) t 0 ht

/-- Doubling as a global constant. -/
def dblT : Term :=
  .fix (.cons (.lam (.case 0 (.rel 0)
    (.cons 0 (.con 0 0 .nil)
    (.cons 1 (.con 0 1 (.cons (.con 0 1 (.cons (.app (.rel 2) (.rel 0)) .nil)) .nil)) .nil)))) .nil) 0

/-- `dbl`, `one := S O`, `two := dbl one`, with an inductive type in between; newest first. -/
def sampleEnv : Environ :=
  [(13, .trm (.app (.const 10) (.const 12))), (12, .trm (.con 0 1 (.cons (.con 0 0 .nil) .nil))), (11, .typ),
   (10, .trm dblT)]

/-- Four. -/
def four : Data := .con 0 1 [.con 0 1 [.con 0 1 [.con 0 1 [.con 0 0 []]]]]

theorem sampleEnv_crct : CrctEnv sampleEnv := by
  simp [CrctEnv, sampleEnv, lookup, Term.crct, Mut.Terms.crct, Mut.Defs.crct, Mut.Brs.crct, dblT, Defined, lookupDfn,
    Mut.Defs.len]

theorem sampleEnv_consts : ConstsEval sampleEnv := by
  refine ⟨⟨⟨trivial, ?_⟩, ?_⟩, ?_⟩
  · exact ⟨_, .fix _ _⟩
  · exact ⟨_, .con (.cons (.con .nil) .nil)⟩
  · exact ⟨_, C47_interpreter_exact.2 ⟨20, (by decide +kernel : Mut.wcbvN _ 20 _ = some
      (.con 0 1 (.cons (.con 0 1 (.cons (.con 0 0 .nil) .nil)) .nil)))⟩⟩

example : Wcbv sampleEnv (.app (.const 10) (.const 13)) four.toTerm :=
  C47_interpreter_exact.2 ⟨30, by decide +kernel⟩

example : Eval (translateProgram [] sampleEnv (.app (.const 10) (.const 13))) four.toExp := by
  refine (C32_data sampleEnv_crct (fun _ _ => rfl) ?_ four).2
    ⟨sampleEnv_consts, C47_interpreter_exact.2 ⟨30, by decide +kernel⟩⟩
  simp [Term.crct, Defined, lookupDfn, lookup, sampleEnv]

/-- The main term evaluates to a numeral, but an unused constant gets stuck (it matches on a function); the linked
program has no value, because constants are linked as lets whose right-hand sides are evaluated first. -/
theorem C32_unused_constant_refuted :
    ∃ (p : Environ) (t : Term) (d : Data), CrctEnv p ∧ t.crct (Defined p) 0 ∧ Wcbv p t d.toTerm ∧
      ¬ ∃ v, Eval (translateProgram [] p t) v := by
  refine ⟨[(1, .trm (.case 0 (.lam (.rel 0)) .nil))], .con 0 0 .nil, .con 0 0 [], ?_, ?_, ?_, ?_⟩
  · simp [CrctEnv, lookup, Term.crct, Mut.Brs.crct]
  · simp [Term.crct, Mut.Terms.crct]
  · exact .con .nil
  · rintro ⟨v, h⟩
    simp only [translateProgram, translateEnv, List.foldr, translateEntry, trans, transB, mkLets, List.foldl] at h
    cases h with
    | letin h _ => cases h with | mtch h _ _ => cases h

/-- The same with an unused constant that diverges. -/
theorem C32_diverging_constant_refuted :
    ∃ (p : Environ) (t : Term) (d : Data), CrctEnv p ∧ t.crct (Defined p) 0 ∧ Wcbv p t d.toTerm ∧
      ¬ ∃ v, Eval (translateProgram [] p t) v := by
  let loop : Term := .app (.fix (.cons (.lam (.app (.rel 1) (.rel 0))) .nil) 0) .proof
  have hd : ∀ n, (∀ v, Mut.wcbvN [] n loop ≠ some v) ∧
      ∀ v, Mut.wcbvN [] n (.app (.lam (.app (.fix (.cons (.lam (.app (.rel 1) (.rel 0))) .nil) 0) (.rel 0))) .proof)
        ≠ some v := by
    intro n
    induction n using Nat.strongRecOn with
    | _ n ih =>
      match n with
      | 0 => exact ⟨by simp [Mut.wcbvN], by simp [Mut.wcbvN]⟩
      | 1 => exact ⟨by simp [loop, Mut.wcbvN], by simp [Mut.wcbvN]⟩
      | n + 2 =>
        refine ⟨fun v h => (ih (n + 1) (by omega)).2 v ?_, fun v h => (ih (n + 1) (by omega)).1 v ?_⟩
        · simpa [loop, Mut.wcbvN, Mut.fixStep, Mut.Defs.nth, Mut.Defs.len, Mut.listToZero, Mut.inst] using h
        · simpa [loop, Mut.wcbvN, Mut.inst, Mut.instD, Mut.Defs.len] using h
  refine ⟨[(1, .trm loop)], .con 0 0 .nil, .con 0 0 [], ?_, ?_, ?_, ?_⟩
  · simp [CrctEnv, lookup, Term.crct, Mut.Defs.crct, Mut.Defs.len, loop]
  · simp [Term.crct, Mut.Terms.crct]
  · exact .con .nil
  · rintro ⟨v, h⟩
    have hp : CrctEnv [(1, .trm loop)] := by simp [CrctEnv, lookup, Term.crct, Mut.Defs.crct, Mut.Defs.len, loop]
    obtain ⟨⟨_, s, hs⟩, _⟩ := (link_iff hp (fun _ _ => rfl) (by simp [Term.crct, Mut.Terms.crct])).1 h
    obtain ⟨n, hn⟩ := C47_interpreter_exact.1 hs
    exact (hd n).1 _ hn

end Src
